import Verif.Proofs.Interp
import Verif.Props.Found

/-!
# Strings with evaluations are read back

C92.
-/

set_option autoImplicit false

namespace Genco.Props

open Genco Spec Tokens

variable {ι : Type}

theorem signs_streams {D : Dialect} {L : Lang ι} {esc : Char → Str} (hL : Strung D L esc) (cfg : Config)
    (hn : ∀ c ∈ cfg.newline, c.isWhitespace = true) (k : Str) (ss : List (List (Item ι)))
    (ls : List (List Sign)) (h : ss.mapM (D.signs L.langItem [] []) = some ls) :
    (resolveStreams L cfg ss).2 = some () ∧
      ∀ st, Scan D [] (evText cfg.newline (actsEv cfg st (resolveStreams L cfg ss).1) ++ k) ls.flatten [] k := by
  induction ss generalizing ls with
  | nil =>
    simp only [List.mapM_nil, Option.pure_def, Option.some.injEq] at h
    subst h
    exact ⟨rfl, fun st => .refl _ _⟩
  | cons s ss ih =>
    rw [List.mapM_cons] at h
    simp only [Option.bind_eq_bind, Option.bind_eq_some_iff, Option.pure_def, Option.some.injEq] at h
    obtain ⟨l, h1, ls', h2, rfl⟩ := h
    obtain ⟨i1, i2⟩ := ih ls' h2
    have hr : resolveItems L cfg s = ((res L cfg false [Frame.default] s).1, some ()) := by
      obtain ⟨k1, -, -⟩ := signs_aux hL cfg hn [] s.length s (Nat.le_refl _) [] _ [] l .top h1
      unfold resolveItems
      have : resolve L cfg s.length false [Frame.default] s = res L cfg false [Frame.default] s := rfl
      simp only [this, k1]
      rfl
    simp only [resolveStreams, hr, pre]
    refine ⟨i1, fun st => ?_⟩
    rw [actsEv_append, evText_append, List.flatten_cons, List.append_assoc]
    obtain ⟨-, k2, -⟩ := signs_aux hL cfg hn
      (evText cfg.newline (actsEv cfg (actsSt st (res L cfg false [Frame.default] s).1) (resolveStreams L cfg ss).1) ++ k)
      s.length s (Nat.le_refl _) [] _ [] l .top h1
    exact (k2 (fun d ms => by simp) st).trans (i2 _)

theorem signs_stream {D : Dialect} {L : Lang ι} {esc : Char → Str} (hL : Strung D L esc) (cfg : Config)
    (hn : ∀ c ∈ cfg.newline, c.isWhitespace = true) (items : List (Item ι)) (l : List Sign)
    (h : D.signs L.langItem [] [] items = some l) :
    ∃ out, toString L cfg items = some out ∧ D.meaning out = some l := by
  obtain ⟨h1, h2⟩ := signs_streams hL cfg hn [] [items] [l] (by simp [h])
  have hf := h2 (Fmt.new ([] : Str)).st
  rw [List.flatten_singleton, List.append_nil] at hf
  have hr : resolveItems L cfg items = resolveStreams L cfg [items] := by
    simp only [resolveStreams]
    rcases hi : resolveItems L cfg items with ⟨a, _ | u⟩ <;> simp [pre]
  refine ⟨renderActs cfg (resolveItems L cfg items).1, ?_, ?_⟩
  · rw [toString_eq, hr, h1, renderActs_eq]; rfl
  · rw [hr]; exact hf.readAll rfl rfl _ (Nat.le_refl _)

theorem signs_file {D : Dialect} {L : Lang ι} {esc : Char → Str} (hL : Strung D L esc) (cfg : Config)
    (hn : ∀ c ∈ cfg.newline, c.isWhitespace = true) (ss : List (List (Item ι))) (ls : List (List Sign))
    (h : ss.mapM (D.signs L.langItem [] []) = some ls) :
    ∃ out, toFileString L cfg ss = some out ∧ D.meaning out = some ls.flatten := by
  obtain ⟨h1, h2⟩ := signs_streams hL cfg hn cfg.newline ss ls h
  have hw := fits_white hL.sane hn (ms := [])
  have hs := scan_code hL.sane (fun d ms => by simp) hw.1 []
  rw [hw.2, List.append_nil] at hs
  have hf := (h2 (Fmt.new ([] : Str)).st).trans hs
  rw [List.append_nil] at hf
  refine ⟨renderActs cfg (resolveStreams L cfg ss).1 ++ cfg.newline, ?_, hf.readAll rfl rfl _ (Nat.le_refl _)⟩
  simp only [toFileString]
  rw [show Fmt.out (σ := Str) = (fun f => id f.out) from rfl, okOf_eq, formatFile_eq, h1]
  simp only [replay_string, evText_append]
  simp only [evText, List.append_nil]
  rfl

/-- **C92**, JavaScript: the text of a stream is read as the code, the strings, the texts of the
strings and the evaluations in them that were meant, to any depth. -/
theorem C92_js_partial (li : ι → List Str) (cfg : Config) (hn : ∀ c ∈ cfg.newline, c.isWhitespace = true)
    (items : List (Item ι)) (l : List Sign) (h : jsDialect.signs li [] [] items = some l) :
    ∃ out, toString (jsLang li) cfg items = some out ∧ jsDialect.meaning out = some l :=
  signs_stream (strung_js li) cfg hn items l h

/-- **C92**, Dart. -/
theorem C92_dart_partial (li : ι → List Str) (cfg : Config) (hn : ∀ c ∈ cfg.newline, c.isWhitespace = true)
    (items : List (Item ι)) (l : List Sign) (h : dartDialect.signs li [] [] items = some l) :
    ∃ out, toString (dartLang li) cfg items = some out ∧ dartDialect.meaning out = some l :=
  signs_stream (strung_dart li) cfg hn items l h

/-- **C92** for files: imports, body and whatever else is rendered into them. -/
theorem C92_files_partial (li : ι → List Str) (cfg : Config) (hn : ∀ c ∈ cfg.newline, c.isWhitespace = true)
    (ss : List (List (Item ι))) (ls : List (List Sign)) :
    (ss.mapM (jsDialect.signs li [] []) = some ls →
      ∃ out, toFileString (jsLang li) cfg ss = some out ∧ jsDialect.meaning out = some ls.flatten) ∧
    (ss.mapM (dartDialect.signs li [] []) = some ls →
      ∃ out, toFileString (dartLang li) cfg ss = some out ∧ dartDialect.meaning out = some ls.flatten) :=
  ⟨signs_file (strung_js li) cfg hn ss ls, signs_file (strung_dart li) cfg hn ss ls⟩

/-! ## One literal in Dart -/

theorem dart_one (li : ι → List Str) (cfg : Config) (e : Bool) (x t : ItemStr) :
    toString (dartLang li) cfg [.openQuote e, .openEval, .literal x, .closeEval, .literal t, .closeQuote] =
      some ('"' :: '$' :: (x.text ++ (t.text.flatMap escDart ++ ['"']))) := by
  have hr : resolveItems (dartLang li) cfg
      [.openQuote e, .openEval, .literal x, .closeEval, .literal t, .closeQuote] =
      (texts (['"'] :: ['$'] :: x.text :: (t.text.map escDart ++ [['"']])), some ()) := by
    simp [resolveItems, resolve, texts, pre, dartLang, Frame.default]
  rw [toString_eq, hr]
  simp only [texts]
  rw [render_texts]
  simp [← flatten_map]

theorem codes_leave {n x : Str} {a b : List Sign}
    (h : n.map Sign.code ++ Sign.leave :: a = x.map Sign.code ++ Sign.leave :: b) : n = x ∧ a = b := by
  induction n generalizing x with
  | nil =>
    cases x with
    | nil => simpa using h
    | cons c x => simp at h
  | cons c n ih =>
    cases x with
    | nil => simp at h
    | cons d x =>
      simp only [List.map_cons, List.cons_append, List.cons.injEq, Sign.code.injEq] at h
      obtain ⟨rfl, h⟩ := h
      obtain ⟨rfl, rfl⟩ := ih h
      exact ⟨rfl, rfl⟩

theorem escDart_name {c : Char} (h : namePart c = true) : escDart c = [c] := by
  have hr : (0x30 ≤ c.toNat ∧ c.toNat ≤ 0x39) ∨ (0x41 ≤ c.toNat ∧ c.toNat ≤ 0x5a) ∨
      (0x61 ≤ c.toNat ∧ c.toNat ≤ 0x7a) ∨ c.toNat = 0x5f := by
    simp only [namePart, Char.isAlphanum, Char.isAlpha, Char.isUpper, Char.isLower, Char.isDigit,
      Bool.or_eq_true, Bool.and_eq_true, decide_eq_true_eq] at h
    rcases h with ((⟨h1, h2⟩ | ⟨h1, h2⟩) | ⟨h1, h2⟩) | rfl
    · exact .inr (.inl ⟨by simpa [UInt32.le_iff_toNat_le] using h1, by simpa [UInt32.le_iff_toNat_le] using h2⟩)
    · exact .inr (.inr (.inl ⟨by simpa [UInt32.le_iff_toNat_le] using h1, by simpa [UInt32.le_iff_toNat_le] using h2⟩))
    · exact .inl ⟨by simpa [UInt32.le_iff_toNat_le] using h1, by simpa [UInt32.le_iff_toNat_le] using h2⟩
    · exact .inr (.inr (.inr rfl))
  have hc : isControl c = false := by
    simp only [isControl, Bool.or_eq_false_iff, Bool.and_eq_false_iff, decide_eq_false_iff_not]
    omega
  unfold escDart
  iterate 9 rw [if_neg (by rintro rfl; revert h; decide)]
  rw [if_pos (by simp [hc])]

theorem takeWhile_eq {x z : Str} (h : (x ++ z).takeWhile namePart = x) :
    x.all namePart = true ∧ ∀ c, z.head? = some c → namePart c = false := by
  induction x with
  | nil =>
    refine ⟨rfl, fun c hc => ?_⟩
    cases z with
    | nil => simp at hc
    | cons d z =>
      simp only [List.head?_cons, Option.some.injEq] at hc
      subst hc
      cases hp : namePart d with
      | false => rfl
      | true => simp [hp] at h
  | cons c x ih =>
    cases hp : namePart c with
    | false => simp [hp] at h
    | true =>
      simp only [List.cons_append, List.takeWhile_cons, hp, if_true, List.cons.injEq, true_and] at h
      obtain ⟨h1, h2⟩ := ih h
      exact ⟨by simp only [List.all_cons, hp, h1, Bool.and_self], h2⟩

/-- **C92**, Dart, exactly: an evaluation of one literal is written as `$literal`. Followed by a text,
it is read as the evaluation of that literal if and only if the literal is a name and the text does
not begin with a letter, a digit or an underscore. -/
theorem C92_dart_literal_partial (li : ι → List Str) (cfg : Config) (hn : ∀ c ∈ cfg.newline, c.isWhitespace = true)
    (e : Bool) (x t : ItemStr) (hw : ∀ c ∈ x.text, c.isWhitespace = false) (hx : x.text ≠ []) (hb : x.text.head? ≠ some '{')
    (ht : ∀ c ∈ t.text, c ≠ '\x11' ∧ c ≠ '\x12') :
    (∃ out, toString (dartLang li) cfg
        [.openQuote e, .openEval, .literal x, .closeEval, .literal t, .closeQuote] = some out ∧
      dartDialect.meaning out =
        some (.opens :: .enter :: codes x.text ++ .leave :: unitsOf t.text ++ [.closes])) ↔
    isName x.text = true ∧ ∀ c, t.text.head? = some c → namePart c = false := by
  have hcodes : codes x.text = x.text.map .code := by
    unfold codes
    rw [List.filter_eq_self.2 (fun c hc => by simp [hw c hc])]
  rw [hcodes]
  constructor
  · rintro ⟨out, h1, h2⟩
    rw [dart_one] at h1
    simp only [Option.some.injEq] at h1
    subst h1
    have hread : ∀ fuel, dartDialect.readAll (fuel + 2) []
        ('"' :: '$' :: (x.text ++ (t.text.flatMap escDart ++ ['"']))) =
        match dartDialect.read [.str '"'] ('$' :: (x.text ++ (t.text.flatMap escDart ++ ['"']))) with
        | none => none
        | some (o, ms', r) => (dartDialect.readAll fuel ms' r).map fun a => Sign.opens :: (o ++ a) := by
      intro fuel
      rw [Dialect.readAll]
      have : dartDialect.read [] ('"' :: '$' :: (x.text ++ (t.text.flatMap escDart ++ ['"']))) =
        some ([.opens], [.str '"'], '$' :: (x.text ++ (t.text.flatMap escDart ++ ['"']))) := rfl
      rw [this]
      simp only
      rw [Dialect.readAll]
      split
      · rename_i h; simp [h]
      · rename_i h; simp [h, Function.comp_def]
    unfold Dialect.meaning at h2
    rw [show ('"' :: '$' :: (x.text ++ (t.text.flatMap escDart ++ ['"']))).length =
      (x.text ++ (t.text.flatMap escDart ++ ['"'])).length + 2 from rfl, hread] at h2
    generalize hy : x.text ++ (t.text.flatMap escDart ++ ['"']) = y at h2
    have hyb : y.head? ≠ some '{' := by
      rw [← hy]
      cases hc : x.text with
      | nil => exact absurd hc hx
      | cons c r => rw [hc] at hb; simpa using hb
    have hrd : dartDialect.read [.str '"'] ('$' :: y) =
        if (y.head?.any nameStart) = true then
          some (.enter :: (y.takeWhile namePart).map .code ++ [.leave], [.str '"'], y.dropWhile namePart)
        else none := by
      simp only [Dialect.read]
      rw [if_neg (by decide), if_neg (fun h => hyb h.2.2), if_pos ⟨rfl, trivial⟩]
    rw [hrd] at h2
    by_cases hs : y.head?.any nameStart = true
    swap
    · rw [if_neg hs] at h2; simp at h2
    rw [if_pos hs] at h2
    simp only [Option.map_eq_some_iff] at h2
    obtain ⟨a, -, h2⟩ := h2
    simp only [List.cons_append, List.append_assoc, List.cons.injEq, true_and, List.nil_append] at h2
    obtain ⟨h3, -⟩ := codes_leave h2
    rw [← hy] at h3
    obtain ⟨h4, h5⟩ := takeWhile_eq h3
    constructor
    · cases hc : x.text with
      | nil => exact absurd hc hx
      | cons c r =>
        rw [hc] at hy h4
        rw [← hy] at hs
        simp only [List.all_cons, Bool.and_eq_true] at h4
        simp only [isName, Bool.and_eq_true]
        exact ⟨by simpa using hs, h4.2⟩
    · intro c hc
      cases hp : namePart c with
      | false => rfl
      | true =>
        cases htx : t.text with
        | nil => rw [htx] at hc; simp at hc
        | cons d r =>
          rw [htx] at hc h5
          simp only [List.head?_cons, Option.some.injEq] at hc
          subst hc
          have := h5 d (by rw [List.flatMap_cons, escDart_name hp]; rfl)
          rw [hp] at this; exact this
  · rintro ⟨h1, h2⟩
    obtain ⟨hne, hall, -⟩ := isName_all h1
    refine C92_dart_partial li cfg hn _ _ ?_
    have hf : dartDialect.fits x.text [.eval 0, .str '"'] = some [.eval 0, .str '"'] :=
      name_fits (strung_dart li).sane hall
    have hfol : (follows [.literal t, .closeQuote (ι := ι)]).any namePart = false := by
      simp only [follows]
      split
      · rfl
      · cases hh : t.text.head? with
        | none => rfl
        | some c => simpa using h2 c hh
    have hg : dartDialect.good '"' t.text = true := by
      simpa [dartDialect] using ht
    have hg0 : dartDialect.good '"' [] = true := rfl
    have hd : dartDialect.delim e = '"' := rfl
    simp only [Dialect.signs, hd, hg0, hg, Dialect.apart, h1, hfol, hf, Option.bind_some, Option.map_some,
      List.nil_append, name_white hall]
    simp [dartDialect, unitsOf]

/-- What the theorems are about is what is meant. -/
theorem signs_meant (D : Dialect) (f : ι → List Str) (ms : List Inside) (t : Str) (items : List (Item ι))
    (l : List Sign) (h : D.signs f ms t items = some l) :
    Dialect.signs { D with short := false, good := fun _ _ => true } f ms t items = some l := by
  induction items generalizing ms t l with
  | nil =>
    cases ms with
    | nil => simpa [Dialect.signs] using h
    | cons m ms => simp [Dialect.signs] at h
  | cons i items ih =>
    by_cases hc : InCode ms
    · rw [signs_code _ _ hc] at h ⊢
      have hf : ∀ s ms, Dialect.fits { D with short := false, good := fun _ _ => true } s ms = D.fits s ms := by
        intro s ms; cases ms with
        | nil => rfl
        | cons m ms => cases m <;> rfl
      cases i with
      | literal s =>
        simp only [hf, Option.bind_eq_some_iff, Option.map_eq_some_iff] at h ⊢
        obtain ⟨ms', h1, l', h2, rfl⟩ := h
        exact ⟨ms', h1, l', ih _ _ _ h2, rfl⟩
      | lang p i =>
        simp only [hf, Option.bind_eq_some_iff, Option.map_eq_some_iff] at h ⊢
        obtain ⟨ms', h1, l', h2, rfl⟩ := h
        exact ⟨ms', h1, l', ih _ _ _ h2, rfl⟩
      | openQuote e =>
        simp only [Option.map_eq_some_iff] at h ⊢
        obtain ⟨l', h2, rfl⟩ := h
        exact ⟨l', ih _ _ _ h2, rfl⟩
      | closeEval =>
        rcases ms with _ | ⟨_ | d, ms⟩
        · simp at h
        · rename_i n
          cases n with
          | succ n => simp at h
          | zero =>
            simp only [Option.map_eq_some_iff] at h ⊢
            obtain ⟨l', h2, rfl⟩ := h
            exact ⟨l', ih _ _ _ h2, rfl⟩
        · simp at h
      | closeQuote => simp at h
      | openEval => simp at h
      | _ => exact ih _ _ _ h
    · rcases ms with _ | ⟨_ | d, ms⟩
      · exact absurd (fun d ms => by simp) hc
      · exact absurd (fun d ms => by simp) hc
      · cases i with
        | literal s => simp only [Dialect.signs] at h ⊢; exact ih _ _ _ h
        | register p i => simp only [Dialect.signs] at h ⊢; exact ih _ _ _ h
        | closeQuote =>
          simp only [Dialect.signs] at h ⊢
          split at h
          · simp only [Option.map_eq_some_iff, if_true] at h ⊢
            obtain ⟨l', h2, rfl⟩ := h
            exact ⟨l', ih _ _ _ h2, rfl⟩
          · simp at h
        | openEval =>
          simp only [Dialect.signs] at h ⊢
          split at h
          · rename_i hg
            simp only [Bool.and_eq_true] at hg
            have ha : Dialect.apart { D with short := false, good := fun _ _ => true } items = true := by
              unfold Dialect.apart; split <;> rfl
            rw [if_pos (by simp [hg.1.2, ha])]
            simp only [Option.map_eq_some_iff] at h ⊢
            obtain ⟨l', h2, rfl⟩ := h
            exact ⟨l', ih _ _ _ h2, rfl⟩
          · simp at h
        | _ => simp [Dialect.signs] at h

/-- The theorems are about streams that mean something, and say that this is read. -/
theorem C92_meant (D : Dialect) (f : ι → List Str) (items : List (Item ι)) (l : List Sign)
    (h : D.signs f [] [] items = some l) : D.meant f items = some l := signs_meant D f [] [] items l h

/-- `$[str]($(name)s)`: in Dart the text goes on the name. -/
def plural : List (Item Str) :=
  [.openQuote true, .openEval, .literal (.static "name".toList), .closeEval, .literal (.static ['s']), .closeQuote]

/-- `$[str]($(user.name))`. -/
def member : List (Item Str) :=
  [.openQuote true, .openEval, .literal (.static "a.b".toList), .closeEval, .closeQuote]

/-- `$[str]($[const](tick)$(x))` with a backtick. -/
def ticked : List (Item Str) :=
  [.openQuote true, .literal (.box ['`']), .openEval, .literal (.static ['x']), .closeEval, .closeQuote]

/-- **C92** is false of the code. In Dart `$(name)s` is read as the evaluation of `names`, and
`$(a.b)` as the evaluation of `a` before the text `.b`; in JavaScript a backtick in a text ends the
template. -/
theorem C92_negative :
    (dartDialect.meant (fun s => [s]) plural =
        some ([.opens, .enter] ++ "name".toList.map .code ++ [.leave, .unit 115, .closes]) ∧
      ∃ out, toString (dartLang fun s => [s]) ⟨.space 2, ['\n']⟩ plural = some out ∧ out = "\"$names\"".toList ∧
        dartDialect.meaning out = some ([.opens, .enter] ++ "names".toList.map .code ++ [.leave, .closes])) ∧
    (dartDialect.meant (fun s => [s]) member =
        some ([.opens, .enter] ++ "a.b".toList.map .code ++ [.leave, .closes]) ∧
      ∃ out, toString (dartLang fun s => [s]) ⟨.space 2, ['\n']⟩ member = some out ∧ out = "\"$a.b\"".toList ∧
        dartDialect.meaning out = some [.opens, .enter, .code 'a', .leave, .unit 46, .unit 98, .closes]) ∧
    (∃ l, jsDialect.meant (fun s => [s]) ticked = some l ∧
      ∃ out, toString (jsLang fun s => [s]) ⟨.space 2, ['\n']⟩ ticked = some out ∧ out = "``${x}`".toList ∧
        jsDialect.meaning out ≠ some l) := by
  refine ⟨⟨by decide +kernel, _, by decide +kernel, rfl, by decide +kernel⟩,
    ⟨by decide +kernel, _, by decide +kernel, rfl, by decide +kernel⟩,
    _, rfl, _, by decide +kernel, rfl, by decide +kernel⟩

namespace InterpSample

/-- `` log(`Hello ${greet({who: "World", n: `${i}`})}!`); `` over two lines. -/
def js : List (Item Str) :=
  [.literal (.static "log(".toList), .push, .openQuote true, .literal (.static "Hello $\n".toList), .openEval,
    .lang 0 "greet".toList, .literal (.static "({who:".toList), .space, .openQuote false,
    .literal (.box "Wor\"ld".toList), .closeQuote, .literal (.static ", n:".toList), .push, .openQuote true, .openEval,
    .literal (.static ['i']), .closeEval, .closeQuote, .literal (.static "})".toList), .closeEval,
    .literal (.static "!{".toList), .closeQuote, .literal (.static ");".toList)]

/-- `"$name, ${a + "\$b"}"`. -/
def dart : List (Item Str) :=
  [.openQuote true, .openEval, .literal (.static "name".toList), .closeEval, .literal (.static ", ".toList), .openEval,
    .literal (.static ['a']), .space, .literal (.static ['+']), .space, .openQuote false,
    .literal (.static "$b".toList), .closeQuote, .closeEval, .closeQuote]

end InterpSample

open InterpSample

/-- The conditions of `C92_js_partial` are met by a template with an evaluation over two lines, with a
string and another template in it. -/
example : (jsDialect.signs (fun s => [s]) [] [] js).isSome = true ∧
    toString (jsLang fun s => [s]) ⟨.space 2, ['\n']⟩ js =
      some "log(\n`Hello $\\n${greet({who: \"Wor\\\"ld\", n:\n`${i}`})}!{`);".toList := by
  decide +kernel

/-- The conditions of `C92_dart_partial` are met by a string with both forms of evaluation and a
string in one of them. -/
example : dartDialect.signs (fun s => [s]) [] [] dart =
      some ([.opens, .enter] ++ "name".toList.map .code ++ [.leave, .unit 44, .unit 32, .enter, .code 'a', .code '+',
        .opens, .unit 36, .unit 98, .closes, .leave, .closes]) ∧
    toString (dartLang fun s => [s]) ⟨.space 2, ['\n']⟩ dart = some "\"$name, ${a + \"\\$b\"}\"".toList := by
  decide +kernel

/-- A file of both. -/
example : ([js, js].mapM (jsDialect.signs (fun s => [s]) [] [])).isSome = true ∧
    ([dart, dart].mapM (dartDialect.signs (fun s => [s]) [] [])).isSome = true := by
  decide +kernel

/-- `$(count) items` meets both conditions of `C92_dart_literal_partial`, `$(a.b)` not the first, and
`$(name)s` not the second. -/
example : isName "count".toList = true ∧ namePart ' ' = false ∧ isName "a.b".toList = false ∧ namePart 's' = true := by
  decide +kernel

end Genco.Props
