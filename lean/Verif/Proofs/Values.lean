import Verif.Proofs.Shift
import Verif.Proofs.Fake
import Verif.Spec.Values

/-!
# Lemmas about appended values and comments
-/

set_option autoImplicit false

namespace Genco

open Spec Tokens

variable {ι : Type}

/-! ## How a text is stored does not matter -/

/-- Forget how a text is stored. -/
def kindless : Item ι → Item ι
  | .literal s => .literal (.static s.text)
  | i => i

theorem bare_eq (i : Item ι) : bare i = erase (kindless i) := by cases i <;> rfl

theorem kindless_spaceRev (r : List (Item ι)) :
    (spaceRev r).map kindless = spaceRev (r.map kindless) := by
  cases r with
  | nil => rfl
  | cons i r => cases i <;> rfl

theorem kindless_pushRev (r : List (Item ι)) :
    (pushRev r).map kindless = pushRev (r.map kindless) := by
  induction r with
  | nil => rfl
  | cons i r ih => cases i <;> first | rfl | exact ih

theorem kindless_lineRev (r : List (Item ι)) :
    (lineRev r).map kindless = lineRev (r.map kindless) := by
  induction r with
  | nil => rfl
  | cons i r ih => cases i <;> first | rfl | exact ih

theorem kindless_indentationRev (n : Int) (r : List (Item ι)) :
    (indentationRev n r).map kindless = indentationRev n (r.map kindless) := by
  induction r generalizing n with
  | nil => simp only [List.map_nil, indentationRev]; split <;> rfl
  | cons i r ih =>
    cases i <;> simp only [List.map_cons, kindless, indentationRev] <;>
      first | exact ih _ | (split <;> rfl)

/-- The stream with the storage of texts forgotten. -/
def kindlessT (t : Tokens ι) : Tokens ι := ⟨t.rev.map kindless, t.lastLangItem⟩

theorem kindless_item (t : Tokens ι) (i : Item ι) :
    kindlessT (t.item i) = (kindlessT t).item (kindless i) := by
  cases i <;> simp [kindlessT, item, push, line, space, indentation, langItem, langItemRegister,
    kindless, kindless_spaceRev, kindless_pushRev, kindless_lineRev, kindless_indentationRev]

theorem kindless_extend (t : Tokens ι) (l : List (Item ι)) :
    kindlessT (t.extend l) = (kindlessT t).extend (l.map kindless) := by
  induction l generalizing t with
  | nil => rfl
  | cons i l ih =>
    show kindlessT ((t.item i).extend l) = ((kindlessT t).item (kindless i)).extend (l.map kindless)
    rw [ih, kindless_item]

theorem kindless_fromIter (l : List (Item ι)) :
    (fromIter l).items.map kindless = (fromIter (l.map kindless)).items := by
  have := kindless_extend (new : Tokens ι) l
  have e : kindlessT (new : Tokens ι) = new := rfl
  rw [e] at this
  unfold fromIter items
  rw [← this, List.map_reverse]
  rfl

theorem res_kindless (L : Lang ι) (cfg : Config) (n : Nat) (items : List (Item ι))
    (hn : items.length ≤ n) (e : Bool) (st : List Frame) :
    res L cfg e st (items.map kindless) =
      ((res L cfg e st items).1, (res L cfg e st items).2.map (List.map kindless)) := by
  induction n generalizing items e st with
  | zero =>
    have : items = [] := by simpa using hn
    subst this
    simp [res_nil]
  | succ n ih =>
    cases items with
    | nil => simp [res_nil]
    | cons i rest =>
      simp only [List.length_cons] at hn
      cases st with
      | nil => rfl
      | cons head stack' =>
        have step : ∀ e st, res L cfg e st (rest.map kindless) =
            ((res L cfg e st rest).1, (res L cfg e st rest).2.map (List.map kindless)) :=
          fun e st => ih rest (by omega) e st
        have prelem : ∀ (a : List Act) (r : List Act × Option (List (Item ι))),
            pre a (r.1, r.2.map (List.map kindless)) =
              ((pre a r).1, (pre a r).2.map (List.map kindless)) := fun a r => rfl
        rw [List.map_cons]
        cases i with
        | openEval =>
          rw [show kindless (Item.openEval : Item ι) = .openEval from rfl, res_cons, res_cons]
          simp only
          split
          · rcases rest with _ | ⟨i1, _ | ⟨i2, rest'⟩⟩
            · simp only [List.map_nil, res_nil]; rfl
            · have := step e (⟨false, false, true⟩ :: head :: stack')
              cases i1 <;> simp only [List.map_cons, List.map_nil, kindless] at this ⊢ <;>
                rw [← prelem, ← this]
            · have h1 := step e (⟨false, false, true⟩ :: head :: stack')
              have h2 := ih rest' (by simp at hn; omega) e (head :: stack')
              cases i1 with
              | literal s =>
                cases i2 <;> simp only [List.map_cons, kindless, ItemStr.text] at h1 ⊢ <;>
                  first | rw [h2, prelem] | rw [h1, prelem]
              | _ => simp only [List.map_cons, kindless] at h1 ⊢; rw [h1, prelem]
          · rfl
        | closeEval =>
          rw [show kindless (Item.closeEval : Item ι) = .closeEval from rfl, res_cons, res_cons]
          simp only
          split
          · rw [step, prelem]
          · rfl
        | closeQuote =>
          rw [show kindless (Item.closeQuote : Item ι) = .closeQuote from rfl, res_cons, res_cons]
          simp only
          split
          · rfl
          · split
            · rw [step, prelem]
            · rfl
        | openQuote ev =>
          rw [show kindless (Item.openQuote ev : Item ι) = .openQuote ev from rfl, res_cons, res_cons]
          simp only
          split
          · rw [step, prelem]
          · split
            · rw [step true [Frame.default]]
              cases h : (res L cfg true [Frame.default] rest).2 with
              | none => rfl
              | some rest' =>
                have hl := resolve_length _ _ _ _ _ _ _ h
                simp only [Option.map_some]
                rw [ih rest' (by omega), prelem]
            · rfl
        | indentation k =>
          rw [show kindless (Item.indentation k : Item ι) = .indentation k from rfl, res_cons, res_cons]
          simp only
          split
          · rw [step]
          · rw [step, prelem]
        | register p i => simp only [kindless]; rw [res_cons, res_cons]; simp only [step]
        | _ => simp only [kindless, ItemStr.text]; rw [res_cons, res_cons]; simp only [step, prelem, ItemStr.text]

theorem resolveItems_kindless (L : Lang ι) (cfg : Config) (items : List (Item ι)) :
    resolveItems L cfg (items.map kindless) = resolveItems L cfg items := by
  have h := res_kindless L cfg items.length items (Nat.le_refl _) false [Frame.default]
  unfold res at h
  rw [List.length_map] at h
  simp only [resolveItems, List.length_map, h]
  cases (resolve L cfg items.length false [Frame.default] items).2 <;> rfl

theorem resolveItems_bare (L : Lang ι) (cfg : Config) {a b : List (Item ι)}
    (h : a.map bare = b.map bare) : resolveItems L cfg a = resolveItems L cfg b := by
  have e : ∀ l : List (Item ι), l.map bare = (l.map kindless).map erase := by
    intro l; rw [List.map_map]; exact List.map_congr_left fun i _ => bare_eq i
  rw [e, e] at h
  rw [← resolveItems_kindless L cfg a, resolveItems_congr L cfg h, resolveItems_kindless]

theorem fromIter_bare {a b : List (Item ι)} (h : a.map bare = b.map bare) :
    (fromIter a).items.map bare = (fromIter b).items.map bare := by
  have e : ∀ l : List (Item ι), l.map bare = (l.map kindless).map erase := by
    intro l; rw [List.map_map]; exact List.map_congr_left fun i _ => bare_eq i
  rw [e, e] at h
  rw [e, e, kindless_fromIter, kindless_fromIter]
  have : fromIter (a.map kindless) = fromIter (b.map kindless) := extend_erase _ h
  rw [this]

/-! ## Values as items -/

/-- The items of a registration. -/
theorem register_items (r : Reg ι) (is : List ι) (h : Registers r is) (t : Tokens ι) :
    r.register t = t.extend (is.map (.register 0)) := by
  induction h generalizing t with
  | one i => rfl
  | nil => rfl
  | cons _ _ ih1 ih2 =>
    rw [List.map_append, extend_append, ← ih1]
    have := ih2
    simp only [Reg.register] at this ⊢
    rw [Reg.registerAll, this]

mutual
/-- Every registration has its list of imports. -/
theorem registers_exists (r : Reg ι) : ∃ is, Registers r is := by
  match r with
  | .one i => exact ⟨_, .one i⟩
  | .tuple rs => exact registers_all rs
theorem registers_all (rs : List (Reg ι)) : ∃ is, Registers (.tuple rs) is := by
  match rs with
  | [] => exact ⟨_, .nil⟩
  | r :: rs =>
    obtain ⟨a, ha⟩ := registers_exists r
    obtain ⟨b, hb⟩ := registers_all rs
    exact ⟨_, .cons ha hb⟩
end

/-- Items of a comment without end mark. -/
def markItems (m : ItemStr) (ls : List ItemStr) : List (Item ι) :=
  ls.flatMap fun l => [.push, .literal m, .space, .literal l]

/-- Items of a Java comment. -/
def javaItems (ls : List ItemStr) : List (Item ι) :=
  if ls = [] then [] else
    [.push, .literal (.static ['/', '*', '*'])] ++
    (ls.flatMap fun l => [.push, .space, .literal (.static ['*']), .space, .literal l]) ++
    [.push, .space, .literal (.box ['*', '/'])]

theorem csharpBlock_items (ls : List ItemStr) (t : Tokens ι) :
    csharpBlockComment ls t = t.extend (markItems (.static ['/', '/', '/']) ls) := by
  induction ls generalizing t with
  | nil => rfl
  | cons l r ih => rw [csharpBlockComment, ih]; rfl

theorem csharp_items (ls : List ItemStr) (t : Tokens ι) :
    csharpComment ls t = t.extend (markItems (.static ['/', '/']) ls) := by
  induction ls generalizing t with
  | nil => rfl
  | cons l r ih => rw [csharpComment, ih]; rfl

theorem dart_items (ls : List ItemStr) (t : Tokens ι) :
    dartDocComment ls t = t.extend (markItems (.static ['/', '/', '/']) ls) := by
  induction ls generalizing t with
  | nil => rfl
  | cons l r ih => rw [dartDocComment, ih]; rfl

theorem javaLines_items (ls : List ItemStr) (t : Tokens ι) :
    javaBlockLines ls t = t.extend
      (ls.flatMap fun l => [.space, .literal (.static ['*']), .space, .literal l, .push]) := by
  induction ls generalizing t with
  | nil => rfl
  | cons l r ih => rw [javaBlockLines, ih]; rfl

theorem java_items (ls : List ItemStr) (t : Tokens ι) :
    javaBlockComment ls t = t.extend (javaItems ls) := by
  cases ls with
  | nil => rfl
  | cons l ls =>
    have shift : ∀ (ls : List ItemStr) (x : List (Item ι)),
        Item.push :: (ls.flatMap fun l => [.space, .literal (.static ['*']), .space, .literal l, .push]) ++ x =
        (ls.flatMap fun l => [.push, .space, .literal (.static ['*']), .space, .literal l]) ++
          Item.push :: x := by
      intro ls x
      induction ls with
      | nil => rfl
      | cons l ls ih => simp only [List.flatMap_cons, List.cons_append, List.append_assoc, List.nil_append] at ih ⊢; rw [ih]
    have e : (javaItems (l :: ls) : List (Item ι)) =
        [.push, .literal (.static ['/', '*', '*'])] ++
        (Item.push :: ((l :: ls).flatMap fun l => [.space, .literal (.static ['*']), .space, .literal l, .push]) ++
          [.space, .literal (.box ['*', '/'])]) := by
      rw [shift]; simp [javaItems]
    rw [e, javaBlockComment]
    simp only [List.isEmpty_cons, Bool.false_eq_true, if_false, javaLines_items]
    rw [List.cons_append, List.cons_append, List.cons_append]
    simp only [extend, List.nil_append, List.foldl_append, List.foldl_cons, List.foldl_nil]
    rfl

mutual
/-- The items a value consists of. -/
theorem value_items (v : Value ι) : ∃ is : List (Item ι), ∀ t : Tokens ι, v.formatInto t = t.extend is := by
  match v with
  | .item i => exact ⟨[i], fun t => by cases i <;> rfl⟩
  | .itemStr s | .itemStrRef s => exact ⟨[.literal s], fun _ => rfl⟩
  | .tokens a | .tokensRef a => exact ⟨a.items, fun _ => rfl⟩
  | .vec vs | .vecRef vs | .slice vs | .cowSlice _ vs | .cowSliceRef _ vs =>
    obtain ⟨is, h⟩ := values_items vs
    exact ⟨is, fun t => by rw [Value.formatInto, h]⟩
  | .str s | .stringRef s | .string s | .rc s | .rcRef s | .arguments s | .display s =>
    exact ⟨[.literal (.box s)], fun _ => rfl⟩
  | .cowStr o s | .cowStrRef o s => exact ⟨[.literal (.box s)], fun _ => by cases o <;> rfl⟩
  | .int n => exact ⟨[.literal (.box (intText n))], fun _ => rfl⟩
  | .static s => exact ⟨[.literal (.static s)], fun _ => rfl⟩
  | .none => exact ⟨[], fun _ => rfl⟩
  | .some v =>
    obtain ⟨is, h⟩ := value_items v
    exact ⟨is, fun t => by rw [Value.formatInto, h]⟩
  | .quoted v =>
    obtain ⟨is, h⟩ := value_items v
    exact ⟨.openQuote false :: is ++ [.closeQuote], fun t => by
      rw [Value.formatInto, h, extend_append]; rfl⟩
  | .fromFn cs =>
    refine ⟨cs.flatMap callItems, fun t => ?_⟩
    rw [Value.formatInto]
    induction cs generalizing t with
    | nil => rfl
    | cons c cs ih =>
      rw [List.flatMap_cons, extend_append, List.foldl_cons, ih]
      congr 1
      cases c with
      | append i => cases i <;> rfl
      | _ => rfl
  | .lang i => exact ⟨[.lang 0 i], fun _ => rfl⟩
  | .register r =>
    obtain ⟨is, h⟩ := registers_exists r
    exact ⟨_, fun t => by rw [Value.formatInto, register_items r is h]⟩
  | .csharpBlockComment ls => exact ⟨_, fun t => by rw [Value.formatInto, csharpBlock_items]⟩
  | .csharpComment ls => exact ⟨_, fun t => by rw [Value.formatInto, csharp_items]⟩
  | .javaBlockComment ls => exact ⟨_, fun t => by rw [Value.formatInto, java_items]⟩
  | .dartDocComment ls => exact ⟨_, fun t => by rw [Value.formatInto, dart_items]⟩
theorem values_items (vs : List (Value ι)) :
    ∃ is : List (Item ι), ∀ t : Tokens ι, Value.formatAll vs t = t.extend is := by
  match vs with
  | [] => exact ⟨[], fun _ => rfl⟩
  | v :: vs =>
    obtain ⟨a, ha⟩ := value_items v
    obtain ⟨b, hb⟩ := values_items vs
    exact ⟨a ++ b, fun t => by rw [Value.formatAll, ha, hb, extend_append]⟩
end

end Genco
