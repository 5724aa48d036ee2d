import Verif.Proofs.Comments
import Verif.Props.Gaps

/-!
# Properties of appended values and comments (C68, C69, C70, C71)
-/

set_option autoImplicit false

namespace Genco.Props

open Genco Spec Tokens

variable {ι : Type}

theorem run_extend (t : Tokens ι) (cs : List (Call ι)) :
    cs.foldl Call.run t = t.extend (cs.flatMap callItems) := by
  induction cs generalizing t with
  | nil => rfl
  | cons c cs ih =>
    rw [List.flatMap_cons, Genco.extend_append, List.foldl_cons, ih]
    congr 1
    cases c with
    | append i => cases i <;> rfl
    | _ => rfl

theorem reads_items (v : Value ι) (s : Str) (h : Reads v s) :
    ∃ x : ItemStr, x.text = s ∧ ∀ t : Tokens ι, v.formatInto t = t.item (.literal x) := by
  induction h with
  | item s | itemStr s | itemStrRef s => exact ⟨s, rfl, fun _ => rfl⟩
  | str s | stringRef s | string s | rc s | rcRef s | arguments s | display s =>
    exact ⟨.box s, rfl, fun _ => rfl⟩
  | cowStr o s | cowStrRef o s => exact ⟨.box s, rfl, fun _ => by cases o <;> rfl⟩
  | int n => exact ⟨.box (intText n), intText_signed n, fun _ => rfl⟩
  | static s => exact ⟨.static s, rfl, fun _ => rfl⟩
  | some _ ih =>
    obtain ⟨x, h1, h2⟩ := ih
    exact ⟨x, h1, fun t => by rw [Value.formatInto, h2]⟩

theorem toVec_bare (L : Lang ι) (cfg : Config) {a b : List (Item ι)}
    (h : a.map bare = b.map bare) : toVec L cfg a = toVec L cfg b := by
  rw [toVec_eq, toVec_eq, resolveItems_bare L cfg h]

/-- C68. A value that is a piece of text – a string in any of the types accepted, a
number, a formatted value – is rendered by what it reads alone: in every place of every
stream it gives the same lines as the plain string. -/
theorem C68_text (L : Lang ι) (cfg : Config) (v : Value ι) (s : Str) (h : Reads v s)
    (as bs : List (Call ι)) :
    toVec L cfg (bs.foldl Call.run (v.formatInto (history as))).items =
      toVec L cfg (history (as ++ .append (.literal (.static s)) :: bs)).items := by
  obtain ⟨x, h1, h2⟩ := reads_items v s h
  refine toVec_bare L cfg ?_
  have e : bs.foldl Call.run (v.formatInto (history as)) =
      fromIter (as.flatMap callItems ++ .literal x :: bs.flatMap callItems) := by
    rw [h2, run_extend, history_eq]
    show ((fromIter _).item _).extend _ = _
    rw [fromIter, fromIter, Genco.extend_append]
    rfl
  rw [e, history_eq]
  refine fromIter_bare ?_
  simp [callItems, bare, ItemStr.text, ← h1]

theorem reads_unique {a : Nat} {s : Str} {m n : Nat} (h1 : Macro.Reads a s m) (h2 : Macro.Reads a s n) :
    m = n := by
  induction h1 with
  | nil => cases h2; rfl
  | cons h _ ih =>
    cases h2 with
    | cons h' r' =>
      rw [h] at h'
      cases h'
      exact ih r'

/-- C68 for numbers: what is read is the sign and the digits of the number, and
different numbers read differently. -/
theorem C68_number (n : Int) : ∃ d : Str, SpanText.Digits d n.natAbs ∧
    Reads (ι := ι) (.int n) (if n < 0 then '-' :: d else d) :=
  ⟨SpanText.decimal n.natAbs, Macro.decimal_digits _, by
    have := Reads.int (ι := ι) n
    unfold signed at this
    exact this⟩

theorem C68_numbers_differ (m n : Int) (s : Str) (hm : Reads (ι := ι) (.int m) s)
    (hn : Reads (ι := ι) (.int n) s) : m = n := by
  have hs : ∀ k : Int, Reads (ι := ι) (.int k) s → s = signed k := by
    intro k h; cases h; rfl
  have h : signed m = signed n := (hs m hm).symm.trans (hs n hn)
  have inj : ∀ a b : Nat, SpanText.decimal a = SpanText.decimal b → a = b := by
    intro a b e
    have h1 := (Macro.digits_reads (Macro.decimal_digits a)).2
    have h2 := (Macro.digits_reads (Macro.decimal_digits b)).2
    rw [e] at h1
    exact reads_unique h1 h2
  have nosign : ∀ (a : Nat) (r : Str), SpanText.decimal a ≠ '-' :: r := by
    intro a r e
    have h1 := (Macro.digits_reads (Macro.decimal_digits a)).2
    rw [e] at h1
    cases h1 with
    | cons h _ => exact absurd h (by simp [SpanText.digitOf])
  unfold signed at h
  split at h <;> split at h
  · have := inj _ _ (List.cons.inj h).2; omega
  · exact absurd h.symm (nosign _ _)
  · exact absurd h (nosign _ _)
  · have := inj _ _ h; omega

/-- C68. Every value amounts to a fixed list of calls, so everything said about
histories of calls holds for streams into which values have been appended. -/
theorem C68_calls (v : Value ι) : ∃ cs : List (Call ι), ∀ as : List (Call ι),
    v.formatInto (history as) = history (as ++ cs) := by
  obtain ⟨is, h⟩ := value_items v
  refine ⟨[.stream is], fun as => ?_⟩
  rw [h, history_append]
  rfl

example : Reads (.some (.cowStr true "ab".toList) : Value Str) "ab".toList :=
  .some (.cowStr _ _)

example : Reads (.int (-120) : Value Str) "-120".toList := by
  have := Reads.int (ι := Str) (-120)
  rwa [show signed (-120) = "-120".toList by
    simp only [signed, Int.natAbs]; rw [← toDigits_decimal]; decide] at this

example : toVec plain cfg2 (history [.append (lit "x"), .space, .append (lit "ab"), .push,
    .append (lit "y")]).items = some ["x ab".toList, "y".toList] := by decide +kernel

/-- C69. A sequence of values, in whatever container, is its elements one after
another; an absent value is nothing and a present one is its content. -/
theorem C69_sequence (v : Value ι) (vs : List (Value ι)) (h : elements v = some vs) (t : Tokens ι) :
    v.formatInto t = vs.foldl (fun t v => v.formatInto t) t := by
  have e : ∀ (vs : List (Value ι)) (t : Tokens ι),
      Value.formatAll vs t = vs.foldl (fun t v => v.formatInto t) t := by
    intro vs
    induction vs with
    | nil => intro t; rfl
    | cons v vs ih => intro t; rw [Value.formatAll, ih]; rfl
  cases v <;> simp only [elements, Option.some.injEq, reduceCtorEq] at h <;> subst h <;>
    rw [Value.formatInto, e]

theorem C69_option (v : Value ι) (t : Tokens ι) :
    (Value.none : Value ι).formatInto t = t ∧ (Value.some v).formatInto t = v.formatInto t :=
  ⟨rfl, by rw [Value.formatInto]⟩

theorem render_texts (cfg : Config) (ts : List Str) : render cfg (ts.map .text) = ts.flatten := by
  have z : marginText cfg 0 = [] := by unfold marginText; cases cfg.indentation <;> simp
  have key : ∀ (ts p : List Str), (piecesFrom (p.map .text) (ts.map .text)).flatMap (Piece.render cfg) =
      ts.flatten := by
    intro ts
    induction ts with
    | nil => intro p; rfl
    | cons t ts ih =>
      intro p
      have ih' := ih (p ++ [t])
      rw [List.map_append, List.map_singleton] at ih'
      rw [List.map_cons, piecesFrom, List.flatMap_append, ih', List.flatten_cons]
      congr 1
      by_cases ht : t = []
      · simp [ht]
      · simp only [ne_eq, ht, not_false_eq_true, if_true, List.flatMap_cons, List.flatMap_nil, List.append_nil]
        have g : ∀ q : Act → Bool, (∀ x, q (.text x) = false) → ∀ r : Act → Bool,
            (afterLast r (p.map .text)).countP q = 0 ∧ (afterLast r (p.map .text)).any q = false := by
          intro q hq r
          have : ∀ x ∈ afterLast r (p.map Act.text), ∃ s, x = .text s := by
            intro x hx
            have hx' := List.mem_reverse.1 hx
            have hx := List.mem_reverse.1 ((List.takeWhile_sublist _).mem hx')
            obtain ⟨s, -, rfl⟩ := List.mem_map.1 hx
            exact ⟨s, rfl⟩
          constructor
          · rw [List.countP_eq_zero]
            intro x hx
            obtain ⟨s, rfl⟩ := this x hx
            simp [hq]
          · rw [List.any_eq_false]
            intro x hx
            obtain ⟨s, rfl⟩ := this x hx
            simp [hq]
        have g2 : ∀ r r' : Act → Bool, (afterLast r (afterLast r' (p.map .text))).countP isSpace = 0 := by
          intro r r'
          rw [List.countP_eq_zero]
          intro x hx
          have h1 := (List.takeWhile_sublist _).mem (List.mem_reverse.1 hx)
          have h2 := (List.takeWhile_sublist _).mem (List.mem_reverse.1 (List.mem_reverse.1 h1))
          obtain ⟨s, -, rfl⟩ := List.mem_map.1 (List.mem_reverse.1 h2)
          simp [isSpace]
        have b : breaks (p.map .text) = 0 := by
          unfold breaks gap
          rw [(g isLine (fun _ => rfl) visible).2, (g isPush (fun _ => rfl) visible).2]
          simp
        have lv : level (p.map .text) = 0 := by
          simp [level, actInd, Function.comp_def]
        have sp : seps (p.map .text) = 0 := by
          unfold seps gap
          rw [(g isLine (fun _ => rfl) visible).2]
          split
          · exact (g isSpace (fun _ => rfl) visible).1
          · exact g2 _ _
        simp only [place, Piece.render, b, sp, lv]
        split <;> simp [lineStart, z]
  exact key ts []

/-- C69. `quoted` of a piece of text is rendered as one string of the language with
this text as content, whatever the type the text is given in. -/
theorem C69_quoted (L : Lang ι) (cfg : Config) (v : Value ι) (s : Str) (h : Reads v s) :
    toString L cfg ((Value.quoted v).formatInto new).items =
      some ((L.openQuote false).flatten ++ (L.writeQuoted s).flatten ++ (L.closeQuote false).flatten) := by
  obtain ⟨x, h1, h2⟩ := reads_items v s h
  have e : ((Value.quoted v).formatInto new).items =
      (Code.quote false (.item (.literal x) .nil) .nil : Code ι).items := by
    rw [Value.formatInto, h2]; rfl
  rw [e, toString_eq, resolveItems_code L cfg _ rfl]
  have := render_texts cfg (L.openQuote false ++ L.writeQuoted x.text ++ L.closeQuote false)
  simp only [Option.map_some, Option.some.injEq]
  simp only [Code.acts, Body.acts, quotedActs, List.append_nil]
  rw [← List.map_append, ← List.map_append, this, h1]
  simp

/-- C69. `register` of a tuple registers every import in it, in order. -/
theorem C69_register (r : Reg ι) (is : List ι) (h : Registers r is) (as bs : List (Call ι)) :
    (bs.foldl Call.run ((Value.register r).formatInto (history as))).walkImports =
      (inserted as ++ is ++ inserted bs).reverse := by
  rw [Value.formatInto, register_items r is h]
  have hr : ∀ is : List ι, (is.map Call.register).flatMap callItems = is.map (Item.register 0) := by
    intro is
    induction is with
    | nil => rfl
    | cons i is ih => rw [List.map_cons, List.flatMap_cons, ih]; rfl
  have hl : ∀ is : List ι, (is.map (Item.register 0)).filterMap langOf = is := by
    intro is
    induction is with
    | nil => rfl
    | cons i is ih => rw [List.map_cons, List.filterMap_cons, ih]; rfl
  have e : bs.foldl Call.run ((history as).extend (is.map (.register 0))) =
      history (as ++ is.map .register ++ bs) := by
    rw [history_append, history_append, run_extend (history as), hr]
  rw [e, C03_walk_imports]
  simp only [inserted, List.flatMap_append, List.filterMap_append, hr, hl]

example : elements (.cowSliceRef false [.str ['a'], .none, .some (.int 3)] : Value Str) =
    some [.str ['a'], .none, .some (.int 3)] := rfl

example : Registers (.tuple [.one "a".toList, .tuple [.one "b".toList]] : Reg Str)
    ["a".toList, "b".toList] :=
  .cons (.one _) (.cons (.cons (.one _) .nil) .nil)

/-- C70. A comment written behind any text adds exactly its lines: each mark on a line
of its own at the current indentation, followed by a space and the text (nothing if the
text is empty). If what follows starts a new line, it is laid out as without the
comment. -/
theorem C70_comment (L : Lang ι) (cfg : Config) (v : Value ι) (ls : List Str)
    (hv : commentLines v = some ls) (as bs : List (Call ι)) (a b : Code ι)
    (ha : a.items = (history as).items) (hb : b.items = (history (.push :: bs)).items)
    (pa : a.plain = true) (pb : b.plain = true)
    (wa : ∀ i, (history as).items.getLast? = some i → isWs i = false)
    (hA : ∃ r s, a.acts L cfg = r ++ [.text s] ∧ s ≠ []) (k : Int)
    (hk : ((a.acts L cfg).map actInd).sum = k) (hB : StartsLine (history (.push :: bs)).items) :
    ∃ la lb, toVec L cfg (history as).items = some la ∧
      toVec L cfg (history (as ++ .push :: bs)).items = some (la ++ lb) ∧
      toVec L cfg (bs.foldl Call.run (v.formatInto (history as)).push).items =
        some (la ++ ls.map (fun l => marginText cfg k.toNat ++ l) ++ lb) := by
  obtain ⟨rows, hr, hf, rfl⟩ := comment_rows v ls hv
  -- the items of the three streams
  have hane : (history as).items ≠ [] := by
    intro e
    rw [← ha] at e
    obtain ⟨r, s, h, -⟩ := hA
    cases a with
    | nil => simp [Code.acts] at h
    | item i r => simp [Code.items] at e
    | quote e' i r => simp [Code.items] at e
  obtain ⟨w, x, ex⟩ := List.eq_nil_or_concat' (history as).items |>.resolve_left hane
  have hx : isWs x = false := wa x (by rw [ex]; simp)
  have hi : fromIter (history as).items = history as := by rw [history_eq, fromIter_idem]
  have split : ∀ m : List (Item ι), ((history as).extend m).items.map erase =
      (history as).items.map erase ++ (fromIter m).items.map erase := by
    intro m
    have e1 : (history as).extend m = fromIter (w ++ x :: m) := by
      conv_lhs => rw [← hi, ex]
      rw [fromIter, fromIter, Genco.extend_append, Genco.extend_append]
      rfl
    have e2 := fromIter_split w [] x hx
    rw [← ex, hi] at e2
    rw [e1, fromIter_split w m x hx, e2]
    simp [fromIter, extend, items, new]
  have s1 : (history (as ++ .push :: bs)).items.map erase =
      ((history as).items ++ (history (.push :: bs)).items).map erase := by
    rw [history_append, run_extend, split, List.map_append, history_eq (.push :: bs)]
  have s2 : (bs.foldl Call.run (v.formatInto (history as)).push).items.map erase =
      ((history as).items ++ rows.flatMap Row.items ++ (history (.push :: bs)).items).map erase := by
    have e : bs.foldl Call.run (v.formatInto (history as)).push =
        (history as).extend (rows.flatMap Row.items ++ (Call.push :: bs).flatMap callItems) := by
      rw [hf, run_extend, Genco.extend_append]
      rfl
    rw [e, split, rows_fromIter, List.map_append, List.map_append, history_eq (.push :: bs),
      List.append_assoc]
  rw [toVec_congr L cfg s1, toVec_congr L cfg s2]
  -- the requests they make
  have q : ∀ rows : List Row, resolveItems L cfg ((history as).items ++ rows.flatMap Row.items ++
      (history (.push :: bs)).items) =
      (a.acts L cfg ++ rows.flatMap Row.acts ++ b.acts L cfg, some ()) := by
    intro rows
    have e : ∀ l : List (Item ι), resolveItems L cfg l =
      ((res L cfg false [Frame.default] l).1, (res L cfg false [Frame.default] l).2.map (fun _ => ())) :=
      fun l => rfl
    have hp : ∀ i ∈ (rows.flatMap Row.items : List (Item ι)), isPlain i = true := by
      intro i hi
      obtain ⟨r, -, h⟩ := List.mem_flatMap.1 hi
      exact row_plain r i h
    have h1 := res_code L cfg a pa (rows.flatMap Row.items ++ b.items) Frame.default [] rfl rfl
    have h2 := res_plain L cfg (rows.flatMap Row.items) hp b.items false Frame.default [] rfl
    have h3 := res_code L cfg b pb [] Frame.default [] rfl rfl
    have h4 : (rows.flatMap Row.items : List (Item ι)).flatMap (plainActs L.langItem) =
        rows.flatMap Row.acts := by
      rw [List.flatMap_assoc]
      exact congrArg (fun f => rows.flatMap f) (funext fun r => row_acts L.langItem r)
    rw [List.append_nil] at h3
    rw [e, ← ha, ← hb, List.append_assoc, h1, h2, h3, h4]
    simp [pre, res, resolve]
  have q0 := q []
  simp only [List.flatMap_nil, List.append_nil] at q0
  have qa : resolveItems L cfg (history as).items = (a.acts L cfg, some ()) := by
    rw [← ha]; exact resolveItems_code L cfg a pa
  rw [toVec_eq, toVec_eq, toVec_eq, q rows, q0, qa]
  simp only [Option.map_some, Option.some.injEq]
  -- the layout
  obtain ⟨i, r, hB1, hB2⟩ := hB
  have hb' : ∃ x acts, b.acts L cfg = x :: acts ∧ (x = .push ∨ x = .line ∨ ∃ n, x = .indent n) := by
    rw [← hb] at hB1
    cases b with
    | nil => simp [Code.items] at hB1
    | item j r =>
      simp only [Code.items, List.cons.injEq] at hB1
      obtain ⟨rfl, -⟩ := hB1
      rcases hB2 with rfl | rfl | ⟨n, hn, rfl⟩
      · exact ⟨_, _, rfl, .inl rfl⟩
      · exact ⟨_, _, rfl, .inr (.inl rfl)⟩
      · exact ⟨.indent n, r.acts L cfg, by simp [Code.acts, plainActs, hn], .inr (.inr ⟨n, rfl⟩)⟩
    | quote e c r =>
      simp only [Code.items, List.cons_append, List.cons.injEq] at hB1
      obtain ⟨rfl, -⟩ := hB1
      rcases hB2 with h | h | ⟨n, hn, h⟩ <;> cases h
  obtain ⟨y, acts, hy1, hy2⟩ := hb'
  have eA := actsSt_last .new (a.acts L cfg) hA
  have iA := actsSt_indent .new (a.acts L cfg)
  have st : actsSt .new (a.acts L cfg) = ⟨.none, 0, k⟩ := by
    generalize actsSt .new (a.acts L cfg) = z at eA iA
    obtain ⟨z1, z2, z3⟩ := z
    dsimp only at eA iA
    rw [eA.1, eA.2, iA, hk]
    simp [LSt.new]
  obtain ⟨lb, hlb⟩ := vec_after_start cfg y hy2 acts k
  refine ⟨_, lb, rfl, ?_, ?_⟩
  · rw [vecActs_append, st, hy1, hlb]
  · obtain ⟨⟨sp', h1⟩, h2⟩ := rows_vec cfg rows hr k 0 (vecActs cfg .new .new (a.acts L cfg))
    rw [vecActs_append, vecActs_append, actsSt_append, st, h1, hy1, hlb, h2, List.map_map]
    rfl

/-- C70. A comment at the start of a stream. -/
theorem C70_first (L : Lang ι) (cfg : Config) (v : Value ι) (l : Str) (ls : List Str)
    (hv : commentLines v = some (l :: ls)) : toVec L cfg (v.formatInto new).items = some (l :: ls) := by
  obtain ⟨rows, hr, hf, h⟩ := comment_rows v (l :: ls) hv
  cases rows with
  | nil => simp at h
  | cons r rows =>
    have e := rows_fromIter (r :: rows) ([] : List (Item ι))
    have e0 : (fromIter ([] : List (Item ι))).items = [] := rfl
    rw [List.append_nil, e0, List.map_nil, List.append_nil] at e
    have e1 : (v.formatInto new).items.map erase = ((r :: rows).flatMap Row.items).map erase := by
      rw [hf]; exact e
    have hp : ∀ i ∈ ((r :: rows).flatMap Row.items : List (Item ι)), isPlain i = true := by
      intro i hi
      obtain ⟨r, -, h⟩ := List.mem_flatMap.1 hi
      exact row_plain r i h
    have h4 : ((r :: rows).flatMap Row.items : List (Item ι)).flatMap (plainActs L.langItem) =
        (r :: rows).flatMap Row.acts := by
      rw [List.flatMap_assoc]
      exact congrArg (fun f => (r :: rows).flatMap f) (funext fun r => row_acts L.langItem r)
    rw [toVec_congr L cfg e1, toVec_eq, resolveItems_plain L cfg _ hp, h4]
    simp only [Option.map_some, Option.some.injEq]
    rw [rows_first cfg r rows hr, h]

/-- C71. No line of a Java block comment that does not contain the end mark can end the
comment: after the opening `/*` the end mark stands only at the very end. -/
theorem C71_java_comment_ends (cfg : Config) (k : Nat) (hn : '/' ∉ cfg.newline) (l : ItemStr)
    (ls : List ItemStr) (h : ∀ x ∈ l :: ls, ¬ ['*', '/'] <:+: x.text) (lines : List Str)
    (hl : commentLines (.javaBlockComment (l :: ls) : Value ι) = some lines) :
    ∃ inner, cfg.newline.intercalate (lines.map (fun l => marginText cfg k ++ l)) =
        marginText cfg k ++ ['/', '*'] ++ inner ++ ['*', '/'] ∧
      ¬ ['*', '/'] <:+: inner ++ ['*'] := by
  have hm : '/' ∉ marginText cfg k := by
    unfold marginText; cases cfg.indentation <;> simp
  have hw : '/' ∉ cfg.newline ++ marginText cfg k := by simp [hn, hm]
  have hl' : lines = ['/', '*', '*'] :: ((l :: ls).map ItemStr.text).map (marked [' ', '*']) ++ [[' ', '*', '/']] := by
    rw [List.map_map]
    exact (Option.some.inj hl).symm
  refine ⟨['*'] ++ (((l :: ls).map ItemStr.text).flatMap fun l =>
    (cfg.newline ++ marginText cfg k) ++ marked [' ', '*'] l) ++ (cfg.newline ++ marginText cfg k ++ [' ']), ?_, ?_⟩
  · rw [hl', List.map_append, List.map_cons, List.map_map, List.map_singleton, intercalate_rows]
    simp [Function.comp_def]
  · have := java_inner (cfg.newline ++ marginText cfg k) hw ((l :: ls).map ItemStr.text)
      (by intro x hx; obtain ⟨y, hy, rfl⟩ := List.mem_map.1 hx; exact h y hy) ['*'] (by decide)
    simpa using this

/-! ## Instances and limits -/

/-- A comment in the middle of a block. -/
def remark : Value Str := .csharpComment [.box "one".toList, .box [], .static "three".toList]

example : commentLines remark = some ["// one".toList, "//".toList, "// three".toList] := by decide +kernel

example : let as := [.append (lit "{"), .indent, .append (lit "f();")]
    let bs := [.append (lit "g();"), .unindent, .append (lit "}")]
    StartsLine (history (.push :: bs) : Tokens Str).items ∧
    toVec plain cfg2 (history (as ++ .push :: bs)).items =
      some ["{".toList, "  f();".toList, "  g();".toList, "}".toList] ∧
    toVec plain cfg2 (bs.foldl Call.run (remark.formatInto (history as)).push).items =
      some ["{".toList, "  f();".toList, "  // one".toList, "  //".toList, "  // three".toList,
        "  g();".toList, "}".toList] :=
  ⟨⟨.push, _, rfl, .inl rfl⟩, by decide +kernel, by decide +kernel⟩

example : commentLines (.javaBlockComment [.box "one".toList, .box []] : Value Str) =
    some ["/**".toList, " * one".toList, " *".toList, " */".toList] := by decide +kernel

/-- C70 says nothing of the texts: a line break in one of them leaves the comment. -/
theorem C70_newline_negative :
    toString plain cfg2 ((.csharpComment [.box "a\nb".toList] : Value Str).formatInto new).items =
      some "// a\nb".toList := by decide +kernel

/-- C70 needs what follows to start a new line: a comment does not end its own line. -/
theorem C70_follow_negative :
    toVec plain cfg2 (((.csharpComment [.box "a".toList] : Value Str).formatInto new).appendStr
      "f();".toList).items = some ["// af();".toList] := by decide +kernel

/-- Asking for a new line is not enough: `push` followed by `indent` and `unindent` is
lost, and the code that follows becomes part of the comment. -/
theorem C70_cancelled_negative :
    toVec plain cfg2 ([.indent, .unindent, .append (lit "f();")].foldl Call.run
      ((.csharpComment [.box "a".toList] : Value Str).formatInto new).push).items =
      some ["// af();".toList] := by decide +kernel

/-- C71 needs texts without the end mark. -/
theorem C71_negative :
    toVec plain cfg2 ((.javaBlockComment [.box "*/ f();".toList] : Value Str).formatInto new).items =
      some ["/**".toList, " * */ f();".toList, " */".toList] := by decide +kernel

example : ∀ x ∈ [ItemStr.box "a * b / c".toList, .box "/".toList], ¬ ['*', '/'] <:+: x.text := by
  decide +kernel

end Genco.Props
