import Verif.Props.TemplatePrograms
import Verif.Props.SourceFile

/-!
# C116: programs of source texts with interpolations

From the characters of several `quote!` texts, and the values of the names in them, to one file.
-/

set_option autoImplicit false

namespace Genco.Props

open Genco Macro Spec Spec.Text Spec.MacroFile Spec.Template Proofs.TextFile Proofs.Rounds

variable {ι Env : Type}

/-- A stream that a piece of code was collected in is one. -/
theorem own_stream {L : Lang ι} {k : Int} {cs : List (Call ι)} (h : Own L k cs) :
    Own L k [.stream (history cs).items] := by
  have e : [Call.stream (history cs).items].flatMap callItems = (history cs).items := by simp [callItems]
  refine ⟨⟨?_, by rw [history_stream]; exact h.segment.2.1, by rw [history_stream]; exact h.segment.2.2⟩, ?_,
    by rw [history_stream]; exact h.inward⟩
  · obtain ⟨r, x, hx, he⟩ := h.segment.1
    obtain ⟨x', h1, -, h3⟩ := history_ended (r.map Call.append) x (ends_ws he)
    refine ⟨(history (r.map Call.append)).items, x', ?_, ends_erase he h1⟩
    rw [e, history_appended hx, Tokens.items, h3]
    simp [Tokens.items]
  · rw [e, Tokens.history_eq]
    exact opening_items L _ h.begins

/-- Values that show, and dollars. -/
theorem slots_show {H : Host ι (List TT) Env} {ρ : Env} {L : Lang ι} {P : Str → Prop}
    (hP : ∀ n, P n → Shows L (callsOf H ρ (nameHole n))) {ws : List (Nat × Str)} (h : Words P ws) :
    ∀ p ∈ slots ws, ∀ w n, p.2 = .hole w n → Shows L (callsOf H ρ n) := by
  induction h with
  | nil => intro p hp; cases hp
  | @plain g s r h1 h2 h3 ih =>
    rw [slots_plain h1]
    intro p hp
    rcases List.mem_cons.1 hp with rfl | hp
    · intro w n h; cases h
    · exact ih p hp
  | @name g n r h1 h2 h3 h4 h5 ih =>
    rw [slots, if_pos rfl, slotOf, if_neg h2.ne]
    intro p hp
    rcases List.mem_cons.1 hp with rfl | hp
    · intro w m h
      cases h
      exact hP n h1
    · exact ih p hp
  | @escape g r h1 ih =>
    intro p hp
    rcases List.mem_cons.1 hp with rfl | hp
    · intro w m h
      cases h
      exact ⟨by simp [callsOf, opening, callItems, dollarHole, ItemStr.text], ended [] (.literal (.static ['$'])) rfl
        (by simp [Ends, ItemStr.text])⟩
    · exact ih p hp

/-- The rows of a text. -/
theorem source_rows (S : Syn) (cfg : Config) (line k off : Nat) (ls : List Str)
    (hl : ∀ l ∈ ls, '\n' ∉ l) (hp : Holed (Macro.textOf ls)) (hn : Text.nested [] (Macro.textOf ls) = true)
    (ho : offside [] (pad k ls) = true) (hi : ∃ l ∈ ls, blank l = false)
    (hg : ∀ n ∈ names (Macro.textOf ls), S.keyword n = false) :
    ∃ ts ns sl, lex .nightly ⟨line, k, off⟩ (Macro.textOf ls) = some ts ∧ Parses S ts ns ∧
      flatten ns = placeRows line (sl.map rowOf) ∧ sl ≠ [] ∧ Template.Offside [] (sl.map rowOf) ∧
      MacroFile.outLines cfg [] sl = rendered cfg [] false (pad k ls) ∧
      lastLevel [] (sl.map rowOf) = lastDepth [] (pad k ls) ∧
      ∀ l ∈ sl, Words (fun n => n ∈ names (Macro.textOf ls)) ((l.column, l.first) :: l.rest) ∧
        ∃ c r, l.first = c :: r ∧ indentChar c = false := by
  obtain ⟨ts, h1, h2, -, h4⟩ := (lex_holes .nightly ⟨line, k, off⟩ hp.chars hp.apart hp.numbers).1 hn
  cases ls with
  | nil => simp at hi
  | cons l ls =>
    rw [toks_lines ls l line k off line 0 rfl (fun m hm => ⟨all_textOf hp.chars m hm, hl m hm⟩)] at h2
    have hl' : ∀ m ∈ pad k (l :: ls), '\n' ∉ m := by
      intro m hm
      rcases List.mem_cons.1 hm with rfl | hm
      · simp [hl l (by simp)]
      · exact hl m (by simp [hm])
    obtain ⟨k1, k2, k3, k4⟩ := srcs_lines cfg (pad k (l :: ls)) hl' 0 []
    have hne : srcs 0 (pad k (l :: ls)) ≠ [] := by
      rw [Ne, k4]
      intro hall
      obtain ⟨m, hm, hb⟩ := hi
      rcases List.mem_cons.1 hm with rfl | hm
      · have := hall (List.replicate k ' ' ++ m) (by simp [pad])
        simp only [blank, List.all_append, Bool.and_eq_true] at this
        rw [blank, this.2] at hb
        cases hb
      · rw [hall m (by simp [pad, hm])] at hb
        cases hb
    have hw := srcs_words (P := fun n => n ∈ names (Macro.textOf (l :: ls))) (pad k (l :: ls)) (by
      intro m hm
      rcases List.mem_cons.1 hm with rfl | hm
      · obtain ⟨e1, e2⟩ := lines_marked _ hp.marked l (by simp)
        obtain ⟨s1, s2⟩ := marked_spaces k l
        refine ⟨?_, by rw [s1]; exact e1, by rw [s2]; exact e2⟩
        rw [List.all_append, all_textOf hp.chars l (by simp), Bool.and_true, List.all_eq_true]
        intro c hc
        rw [(List.mem_replicate.1 hc).2]
        rfl
      · obtain ⟨e1, e2⟩ := lines_marked _ hp.marked m (by simp [hm])
        exact ⟨all_textOf hp.chars m (by simp [hm]), e1, e2⟩) 0
    have hm := merged_lines (S := S) (fun n hn => hg n hn) _ (fun l hl => (hw l hl).1) line
    rw [← show spelled ts = tokens (placeLines line (srcs 0 (pad k (l :: ls)))) from h2] at hm
    obtain ⟨ns, n1, n2⟩ := merged_parses S h4 hm
    exact ⟨ts, ns, _, h1, n1, n2, hne, offside_rows _ [] (k2.2 ho), k1, lastDepth_rows _ hl' 0 [], hw⟩

theorem langs_content (l : List (Item ι)) :
    ((l.filter (fun i => !isWs i)).map erase).filterMap langOf = l.filterMap langOf := by
  induction l with
  | nil => rfl
  | cons i l ih => cases i <;> first | exact ih | exact congrArg (_ :: ·) ih

theorem inserted_stream (cs : List (Call ι)) : inserted [Call.stream (history cs).items] = inserted cs := by
  have e : [Call.stream (history cs).items].flatMap callItems = (history cs).items := by simp [callItems]
  rw [inserted, e, ← langs_content, C05_content, content, langs_content]
  rfl

/-- C116. The stream made of a source text with `$name` in it is a part of programs: if the last line is on the level
of the first and the values begin and end with text. -/
theorem C116_leaf (K : Host ι Macro.Code Env) (hK : Full K) (ρ : Env) (L : Lang ι) (esc : Char → Str)
    (hQ : ∀ s, L.writeQuoted s = s.map esc) (cfg : Config) (v : Str → List Str) (line k off : Nat) (ls : List Str)
    (h : Written K ρ L cfg v k ls) (hd : lastDepth [] (pad k ls) = 0)
    (hs : ∀ n ∈ names (Macro.textOf ls), Shows L (K.value ρ [n])) :
    ∃ t, Invocation.make .nightly K ρ ⟨⟨line, k, off⟩, ls⟩ = some t ∧
      inserted [Call.stream t.items] = uses K ρ (Macro.textOf ls) ∧
      (Program.leaf [.stream t.items] (written cfg v k ls)).Ok L cfg := by
  obtain ⟨cs, m1, m2, -, m3, -⟩ := C80_stream K hK ρ L esc hQ cfg v line k off ls h
  obtain ⟨ts, ns, sl, h1, h2, h3, h4, h5, h6, h7, h8⟩ := source_rows syn cfg line k off ls h.lines h.holed h.nested
    h.offside h.ink (fun n hn => (known_given (h.known n hn)).free)
  have hg : ∀ n, n ∈ names (Macro.textOf ls) → Props.Given syn K.anywhere ρ L cfg n (v n) := fun n hn => known_given (h.known n hn)
  have hin : ∀ x ∈ sl.map rowOf, ∀ s ∈ x.slots, SlotIn K.anywhere ρ L cfg (callsOf K.anywhere ρ) (linesOf v) s ∧
      ∀ w n, s = .hole w n → Shows L (callsOf K.anywhere ρ n) := by
    intro x hx s hs'
    obtain ⟨l, hl, rfl⟩ := List.mem_map.1 hx
    obtain ⟨y, t, e1, e2⟩ := rowOf_eq l
    have a := slots_in (S := syn) hg (h8 l hl).1
    have b := slots_show (H := K.anywhere) (ρ := ρ) (L := L) (fun n hn => hs n hn) (h8 l hl).1
    rw [e1] at a b
    rw [e2] at hs'
    rcases List.mem_cons.1 hs' with rfl | hs'
    · exact ⟨a (l.column, s) (List.mem_cons_self ..), b (l.column, s) (List.mem_cons_self ..)⟩
    · obtain ⟨p, hp, rfl⟩ := List.mem_map.1 hs'
      exact ⟨a p (List.mem_cons_of_mem _ hp), b p (List.mem_cons_of_mem _ hp)⟩
  obtain ⟨r, ss, q1, -, -, q4⟩ := C115_leaf K.anywhere (fun ρ e => hK.1 ρ _) (fun ρ e => hK.2 ρ _) ρ L esc hQ cfg
    (callsOf K.anywhere ρ) (linesOf v) (sl.map rowOf) (by simpa using h4) (fun x hx s hs => (hin x hx s hs).1) h5 line ns h3
    (h7.trans hd) (fun x hx w n hs => (hin x hx _ hs).2 w n rfl)
  have hq := (C79_quote .nightly ⟨⟨line, k, off⟩, ls⟩ ss).2 ⟨ts, ns, r, h1, (parses_iff _ _ _).1 h2, q1⟩
  have hm : Invocation.make .nightly K ρ ⟨⟨line, k, off⟩, ls⟩ = some (history (runBlock K.anywhere ρ ss)) := by
    rw [Invocation.make, hq]; rfl
  rw [hm] at m1
  have e := Option.some.inj m1
  refine ⟨_, hm, ?_, own_stream q4.1, ?_⟩
  · rw [← m2, e, inserted_stream]
  · rw [history_stream, e]
    exact m3

/-! ## Programs -/

/-- Source texts, each with its place in the source: one below the other, and further in. -/
inductive Invocations where
  | text (line k off : Nat) (ls : List Str)
  | both (a : Invocations) (w : List WsCall) (b : Invocations)
  | block (a b c : Invocations)

/-- The texts can be read and keep to the off-side rule, the values of their names are blocks that begin and end with
text, and every text ends on the level it begins on. -/
def Invocations.Ok (K : Host ι Macro.Code Env) (ρ : Env) (L : Lang ι) (cfg : Config) (v : Str → List Str) :
    Invocations → Prop
  | .text _ k _ ls => Written K ρ L cfg v k ls ∧ lastDepth [] (pad k ls) = 0 ∧
      ∀ n ∈ names (Macro.textOf ls), Shows L (K.value ρ [n])
  | .both a w b => a.Ok K ρ L cfg v ∧ b.Ok K ρ L cfg v ∧ net w = 0 ∧ 0 < gapBreaks w ∧ gapSpaces w = 0
  | .block a b c => a.Ok K ρ L cfg v ∧ b.Ok K ρ L cfg v ∧ c.Ok K ρ L cfg v

/-- The lines of the texts with the values in the places of the names. -/
def Invocations.lines (cfg : Config) (v : Str → List Str) : Invocations → List Str
  | .text _ k _ ls => written cfg v k ls
  | .both a w b => a.lines cfg v ++ List.replicate (gapBreaks w - 1) [] ++ b.lines cfg v
  | .block a b c => a.lines cfg v ++ (b.lines cfg v).map (movedIn cfg 1) ++ c.lines cfg v

/-- The imports of the names in the texts, in order. -/
def Invocations.uses (K : Host ι Macro.Code Env) (ρ : Env) : Invocations → List ι
  | .text _ _ _ ls => Text.uses K ρ (Macro.textOf ls)
  | .both a _ b => a.uses K ρ ++ b.uses K ρ
  | .block a b c => a.uses K ρ ++ b.uses K ρ ++ c.uses K ρ

/-- The calls append the streams that `quote!` makes of the texts, with whitespace calls between them. -/
def Invocations.Makes (K : Host ι Macro.Code Env) (ρ : Env) : Invocations → List (Call ι) → Prop
  | .text line k off ls, cs => ∃ t, Invocation.make .nightly K ρ ⟨⟨line, k, off⟩, ls⟩ = some t ∧ cs = [.stream t.items]
  | .both a w b, cs => ∃ x y, a.Makes K ρ x ∧ b.Makes K ρ y ∧ cs = x ++ w.map WsCall.call ++ y
  | .block a b c, cs => ∃ x y z, a.Makes K ρ x ∧ b.Makes K ρ y ∧ c.Makes K ρ z ∧
      cs = x ++ [.indent] ++ y ++ [.unindent] ++ z

/-- C116. All texts are accepted, and the streams, put together, are a program with the lines of the texts and the
imports of the names in them, so C112 and C113 are about the file of them. -/
theorem C116_program (K : Host ι Macro.Code Env) (hK : Full K) (ρ : Env) (L : Lang ι) (esc : Char → Str)
    (hQ : ∀ s, L.writeQuoted s = s.map esc) (cfg : Config) (v : Str → List Str) (t : Invocations)
    (ht : t.Ok K ρ L cfg v) :
    ∃ p : Program ι, (∀ cs, t.Makes K ρ cs ↔ cs = p.calls) ∧ p.lines cfg = t.lines cfg v ∧ p.imports = t.uses K ρ ∧
      p.Ok L cfg := by
  induction t with
  | text line k off ls =>
    obtain ⟨h1, h2, h3⟩ := ht
    obtain ⟨t, a, b, c⟩ := C116_leaf K hK ρ L esc hQ cfg v line k off ls h1 h2 h3
    refine ⟨.leaf [.stream t.items] (written cfg v k ls), fun cs => ⟨?_, ?_⟩, rfl, b, c⟩
    · rintro ⟨t', a', rfl⟩
      rw [a] at a'
      cases a'
      rfl
    · rintro rfl
      exact ⟨t, a, rfl⟩
  | both a w b iha ihb =>
    obtain ⟨p, p1, p2, p3, p4⟩ := iha ht.1
    obtain ⟨q, q1, q2, q3, q4⟩ := ihb ht.2.1
    refine ⟨.both p w q, fun cs => ⟨?_, ?_⟩, by simp [Program.lines, Invocations.lines, p2, q2],
      by simp [Program.imports, Invocations.uses, p3, q3], p4, q4, ht.2.2⟩
    · rintro ⟨x, y, hx, hy, rfl⟩
      rw [(p1 x).1 hx, (q1 y).1 hy, Program.calls]
    · rintro rfl
      exact ⟨p.calls, q.calls, (p1 _).2 rfl, (q1 _).2 rfl, rfl⟩
  | block a b c iha ihb ihc =>
    obtain ⟨p, p1, p2, p3, p4⟩ := iha ht.1
    obtain ⟨q, q1, q2, q3, q4⟩ := ihb ht.2.1
    obtain ⟨r, r1, r2, r3, r4⟩ := ihc ht.2.2
    refine ⟨.block p q r, fun cs => ⟨?_, ?_⟩, by simp [Program.lines, Invocations.lines, p2, q2, r2],
      by simp [Program.imports, Invocations.uses, p3, q3, r3], p4, q4, r4⟩
    · rintro ⟨x, y, z, hx, hy, hz, rfl⟩
      rw [(p1 x).1 hx, (q1 y).1 hy, (r1 z).1 hz, Program.calls]
    · rintro rfl
      exact ⟨p.calls, q.calls, r.calls, (p1 _).2 rfl, (q1 _).2 rfl, (r1 _).2 rfl, rfl⟩

/-- C116. The file in Go: one import for every module that is used by a name in one of the texts, and below it the
lines of the texts. -/
theorem C116_go (package : Option ItemStr) (K : Host Go.Import Macro.Code Env) (hK : Full K) (ρ : Env) (cfg : Config) (v : Str → List Str)
    (t : Invocations) (ht : t.Ok K ρ Go.lang cfg v) :
    ∃ cs, t.Makes K ρ cs ∧ ∃ ms : List ItemStr,
      toFileVec Go.lang cfg (Go.file package (history cs)) =
        some (under (paragraphs [(package.map (fun p => GoFile.packageLine p.text)).toList,
          ms.map (fun m => GoFile.importLine m.text)]) (t.lines cfg v)) ∧
      Sorted ms ∧ ∀ m, m ∈ ms ↔ ∃ i ∈ t.uses K ρ, i.module = m := by
  obtain ⟨p, p1, p2, p3, p4⟩ := C116_program K hK ρ Go.lang _ (fun _ => rfl) cfg v t ht
  obtain ⟨x, h⟩ := C112_go package cfg p p4
  rw [p2, p3] at h
  exact ⟨p.calls, (p1 _).2 rfl, x, h⟩

/-- C116. The file in C. -/
theorem C116_c (K : Host C.Import Macro.Code Env) (hK : Full K) (ρ : Env) (cfg : Config) (v : Str → List Str)
    (t : Invocations) (ht : t.Ok K ρ C.lang cfg v) :
    ∃ cs, t.Makes K ρ cs ∧ ∃ ms : List (ItemStr × Bool),
      toFileVec C.lang cfg (C.file (history cs)) =
        some (under (ms.map (fun m => CFile.includeLine m.1.text m.2)) (t.lines cfg v)) ∧
      Sorted ms ∧ ∀ m, m ∈ ms ↔ ∃ i ∈ t.uses K ρ, (i.path, i.system) = m := by
  obtain ⟨p, p1, p2, p3, p4⟩ := C116_program K hK ρ C.lang _ (fun _ => rfl) cfg v t ht
  obtain ⟨x, h⟩ := C112_c cfg p p4
  rw [p2, p3] at h
  exact ⟨p.calls, (p1 _).2 rfl, x, h⟩

/-- C116. The file in Swift. -/
theorem C116_swift (K : Host Swift.Import Macro.Code Env) (hK : Full K) (ρ : Env) (cfg : Config) (v : Str → List Str)
    (t : Invocations) (ht : t.Ok K ρ Swift.lang cfg v) :
    ∃ cs, t.Makes K ρ cs ∧ ∃ ms : List ItemStr,
      toFileVec Swift.lang cfg (Swift.file (history cs)) =
        some (under (ms.map (fun m => SwiftFile.importLine m.text)) (t.lines cfg v)) ∧
      Sorted ms ∧ ∀ m, m ∈ ms ↔ ∃ i ∈ t.uses K ρ, i.module = m := by
  obtain ⟨p, p1, p2, p3, p4⟩ := C116_program K hK ρ Swift.lang _ (fun _ => rfl) cfg v t ht
  obtain ⟨x, h⟩ := C112_swift cfg p p4
  rw [p2, p3] at h
  exact ⟨p.calls, (p1 _).2 rfl, x, h⟩

/-- C116. The file in Dart. -/
theorem C116_dart (K : Host Dart.Import Macro.Code Env) (hK : Full K) (ρ : Env) (cfg : Config) (v : Str → List Str)
    (t : Invocations) (ht : t.Ok K ρ Dart.lang cfg v) :
    ∃ cs, t.Makes K ρ cs ∧ ∃ ms : List (ItemStr × Option ItemStr),
      toFileVec Dart.lang cfg (Dart.file (history cs)) =
        some (under (ms.map (fun m => DartFile.importLine m.1.text (m.2.map ItemStr.text))) (t.lines cfg v)) ∧
      Sorted ms ∧ ∀ m, m ∈ ms ↔ ∃ i ∈ t.uses K ρ, i.path.text ≠ DartFile.coreLibrary ∧ (i.path, i.alias) = m := by
  obtain ⟨p, p1, p2, p3, p4⟩ := C116_program K hK ρ Dart.lang _ (fun _ => rfl) cfg v t ht
  obtain ⟨x, h⟩ := C112_dart cfg p p4
  rw [p2, p3] at h
  exact ⟨p.calls, (p1 _).2 rfl, x, h⟩

/-- C116. The file in JavaScript: the bindings of the file are those of the imports that are kept. -/
theorem C116_js (rel : List Js.Component → Str) (K : Host Js.Import Macro.Code Env) (hK : Full K) (ρ : Env) (cfg : Config) (v : Str → List Str)
    (t : Invocations) (ht : t.Ok K ρ Js.lang cfg v) :
    ∃ cs, t.Makes K ρ cs ∧ ∃ ds : List JsFile.Decl,
      toFileVec Js.lang cfg (Js.file rel (history cs)) = some (under (ds.map JsFile.Decl.text) (t.lines cfg v)) ∧
      ∀ n x, (n, x) ∈ ds.flatMap JsFile.Decl.bindings ↔
        ∃ i ∈ t.uses K ρ, JsFile.Kept (t.uses K ρ) i ∧ n = (Js.lang.langItem i).flatten ∧ x = JsFile.target rel i := by
  obtain ⟨p, p1, p2, p3, p4⟩ := C116_program K hK ρ Js.lang _ (fun _ => rfl) cfg v t ht
  obtain ⟨x, h⟩ := C112_js rel cfg p p4
  rw [p2, p3] at h
  exact ⟨p.calls, (p1 _).2 rfl, x, h⟩

/-- C116. The file in Python: which names are what their values mean. -/
theorem C116_python (K : Host Python.Import Macro.Code Env) (hK : Full K) (ρ : Env) (cfg : Config) (v : Str → List Str)
    (t : Invocations) (ht : t.Ok K ρ Python.lang cfg v)
    (hi : ∀ i ∈ t.uses K ρ, PythonFile.Proper i) :
    ∃ cs, t.Makes K ρ cs ∧ ∃ ss : List PythonFile.Stmt,
      toFileVec Python.lang cfg (Python.file (history cs)) = some (under (ss.map PythonFile.Stmt.text) (t.lines cfg v)) ∧
      ∀ i ∈ t.uses K ρ,
        (PythonFile.Resolves ss (Python.lang.langItem i).flatten (PythonFile.moduleOf i) (PythonFile.target i) ↔
          PythonFile.Usual i ∧ ∀ j ∈ t.uses K ρ, ∀ n f f', PythonFile.Claims i n f → PythonFile.Claims j n f' → f = f') := by
  obtain ⟨p, p1, p2, p3, p4⟩ := C116_program K hK ρ Python.lang _ (fun _ => rfl) cfg v t ht
  obtain ⟨x, h⟩ := C112_python cfg p p4 (by rwa [p3])
  rw [p2, p3] at h
  exact ⟨p.calls, (p1 _).2 rfl, x, h⟩

/-- C116. The file in Rust: a name in one of the texts stands for what its value means, exactly if no two names in any
of the texts need the same word for different things. -/
theorem C116_rust (c : Rust.Mode) (K : Host Rust.Import Macro.Code Env) (hK : Full K) (ρ : Env) (cfg : Config) (v : Str → List Str)
    (t : Invocations) (ht : t.Ok K ρ (Rust.lang c) cfg v)
    (hi : ∀ i ∈ t.uses K ρ, RustFile.Proper i) :
    ∃ cs, t.Makes K ρ cs ∧ ∃ us : List RustFile.Use,
      toFileVec (Rust.lang c) cfg (Rust.file c (history cs)) = some (under (us.map RustFile.Use.text) (t.lines cfg v)) ∧
      ∀ i ∈ t.uses K ρ, (RustFile.Resolves us ((Rust.lang c).langItem i).flatten (RustFile.target i) ↔
        ∀ j ∈ t.uses K ρ, RustFile.Needs c j → ∀ n f f', RustFile.Claims c i n f → RustFile.Claims c j n f' → f = f') := by
  obtain ⟨p, p1, p2, p3, p4⟩ := C116_program K hK ρ (Rust.lang c) _ (fun _ => rfl) cfg v t ht
  obtain ⟨x, h⟩ := C112_rust c cfg p p4 (by rwa [p3])
  rw [p2, p3] at h
  exact ⟨p.calls, (p1 _).2 rfl, x, h⟩

/-- C116. The file in Java, where the lines of values depend on all imports: every reference in every text is to the
class its value means, exactly if no class of the own package or of `java.lang` that is used in one of the texts shares
its name with a foreign class that is used in one of them. -/
theorem C116_java (package : Option ItemStr) (K : Host Java.Import Macro.Code Env) (hK : Full K) (ρ : Env) (cfg : Config)
    (v : Str → List Str) (t : Invocations) (classes : Str → Str → Prop)
    (ht : t.Ok K ρ (Java.lang package (merely (t.uses K ρ))) cfg v) (hi : ∀ i ∈ t.uses K ρ, JavaFile.Proper classes i) :
    ∃ cs, t.Makes K ρ cs ∧ ∃ ims : List (Str × Str),
      toFileVec (Java.lang package (history cs)) cfg (Java.file package (history cs)) =
        some (under (paragraphs [(package.map (fun p => JavaFile.packageLine p.text)).toList,
          ims.map (fun e => JavaFile.importLine e.1 e.2)]) (t.lines cfg v)) ∧
      ((∀ i ∈ t.uses K ρ, JavaFile.Denotes ⟨package.map ItemStr.text, ims, classes⟩
          ((Java.lang package (history cs)).langItem i).flatten i.package.text i.name.text) ↔
        JavaFile.Apart (package.map ItemStr.text) classes ((t.uses K ρ).map JavaFile.target)) := by
  obtain ⟨p, p1, p2, p3, p4⟩ := C116_program K hK ρ _ _ (fun _ => rfl) cfg v t ht
  have hu : inserted p.calls = t.uses K ρ := by rw [imports_eq, p3]
  have e : Java.lang package (merely (t.uses K ρ)) = Java.lang package (history p.calls) := by
    unfold Java.lang; rw [walk_merely hu]
  rw [e] at p4
  rw [← hu] at hi
  obtain ⟨ims, h1, h2, -⟩ := C42_java_partial package cfg p.calls classes (program_spaces _ cfg p p4) hi
  rw [program_under _ cfg p p4, p2] at h1
  rw [hu] at h2
  exact ⟨p.calls, (p1 _).2 rfl, ims, h1, h2⟩

/-- C116. The file in C#, maybe with a namespace around the texts: if no name that is written without its namespace is
in another namespace that is used, every reference in every text is to the type its value means. -/
theorem C116_csharp (ns : Option ItemStr) (K : Host Csharp.Import Macro.Code Env) (hK : Full K) (ρ : Env) (cfg : Config)
    (v : Str → List Str) (t : Invocations) (types : Str → Str → Prop)
    (ht : t.Ok K ρ (Csharp.lang ns (merely (t.uses K ρ))) cfg v) (hi : ∀ i ∈ t.uses K ρ, CsharpFile.Proper types i)
    (ha : CsharpFile.Apart (ns.map ItemStr.text) types ((t.uses K ρ).map CsharpFile.target)) :
    ∃ cs, t.Makes K ρ cs ∧ ∃ us : List Str,
      toFileVec (Csharp.lang ns (history cs)) cfg (Csharp.file ns (history cs)) =
        some (under (us.map CsharpFile.usingLine) (match ns with
          | none => t.lines cfg v
          | some n => CsharpFile.namespaceLine n.text :: (t.lines cfg v).map (movedIn cfg 1) ++ ["}".toList])) ∧
      ∀ i ∈ t.uses K ρ, CsharpFile.Denotes ⟨ns.map ItemStr.text, us, types⟩
        ((Csharp.lang ns (history cs)).langItem i).flatten i.ns.text i.name.text := by
  obtain ⟨p, p1, p2, p3, p4⟩ := C116_program K hK ρ _ _ (fun _ => rfl) cfg v t ht
  have hu : inserted p.calls = t.uses K ρ := by rw [imports_eq, p3]
  have e : Csharp.lang ns (merely (t.uses K ρ)) = Csharp.lang ns (history p.calls) := by
    unfold Csharp.lang; rw [walk_merely hu]
  rw [e] at p4
  rw [← hu] at hi ha
  obtain ⟨us, h1, h2, -⟩ := C43_csharp_partial ns cfg p.calls types (fun _ => program_spaces _ cfg p p4) hi ha
  rw [hu] at h2
  refine ⟨p.calls, (p1 _).2 rfl, us, ?_, h2⟩
  cases ns with
  | none => exact h1.trans ((program_under _ cfg p p4 _).trans (by rw [p2]))
  | some n =>
    rw [h1, namespace_lines n cfg p p4, p2]
    cases us <;> simp [fileLines, under]

/-- C116. The file in Nix, where the value of each variable is an expression. -/
theorem C116_nix (isScoped : Bool) (K : Host Nix.Import Macro.Code Env) (hK : Full K) (ρ : Env) (cfg : Config)
    (v : Str → List Str) (t : Invocations) (ht : t.Ok K ρ Nix.lang cfg v) (hv : NixFile.Exprs cfg (t.uses K ρ)) :
    ∃ cs, t.Makes K ρ cs ∧
      ∃ (as : List Str) (ws : List ItemStr) (ins : List (ItemStr × ItemStr)) (vs : List (ItemStr × Tokens Nix.Import)),
        toFileVec Nix.lang cfg (Nix.file isScoped (history cs)) =
          some (under (NixFile.Decls.lines cfg
            ⟨if isScoped then none else some as, ws.map ItemStr.text,
              ins.map (fun e => .inherit e.1.text e.2.text) ++
                vs.map (fun e => .value e.1.text ((toVec Nix.lang cfg e.2.items).getD []))⟩) (t.lines cfg v)) ∧
        Sorted ws ∧ (∀ q, q ∈ ws ↔ ∃ n, Nix.Import.with q n ∈ t.uses K ρ) ∧
        Sorted vs ∧ ∀ n v, (n, v) ∈ vs ↔ Nix.Import.variable n v ∈ t.uses K ρ := by
  obtain ⟨p, p1, p2, p3, p4⟩ := C116_program K hK ρ _ _ (fun _ => rfl) cfg v t ht
  rw [← p3] at hv ⊢
  obtain ⟨as, ws, ins, vs, h1, -, -, h2, h3, -, -, h4, h5⟩ := C112_nix cfg isScoped p p4 hv
  rw [p2] at h1
  exact ⟨p.calls, (p1 _).2 rfl, as, ws, ins, vs, h1, h2, h3, h4, h5⟩

/-! ## Example -/

namespace SourceFileSample

/-- Two macros for two functions; the second text is on one line. -/
def goTexts : Invocations := .both (.text 7 4 90 goText) [.line] (.text 20 0 400 [c!"func f() { $print(1) }"])

theorem goShows : ∀ n, n = c!"get" ∨ n = c!"print" → Shows Go.lang ((host goTable).value () [n]) := by
  have one : ∀ (n : Str) (i : Go.Import), goTable n = some i → (Go.lang.langItem i).flatten ≠ [] →
      Shows Go.lang ((host goTable).value () [n]) := by
    intro n i h hi
    have e : (host goTable).value () [n] = [.appendLang i] := by simp [host, h]
    rw [e]
    exact ⟨hi, [], .lang 0 i, rfl, hi⟩
  rintro n (rfl | rfl)
  · exact one _ ⟨.static c!"net/http", .static c!"Get"⟩ (by decide +kernel) (by decide +kernel)
  · exact one _ ⟨.static c!"fmt", .static c!"Println"⟩ (by decide +kernel) (by decide +kernel)

theorem goTexts_ok (cfg : Config) : goTexts.Ok (host goTable) () Go.lang cfg goValues := by
  have n1 : names (Macro.textOf goText) = [c!"get", c!"print"] := by decide +kernel
  have n2 : names (Macro.textOf [c!"func f() { $print(1) }"]) = [c!"print"] := by decide +kernel
  refine ⟨⟨goWritten cfg, by decide +kernel, fun n hn => goShows n (by simpa [n1] using hn)⟩,
    ⟨⟨by decide +kernel, by decide +kernel, by decide +kernel, by decide +kernel, by decide +kernel, fun n hn => ?_⟩,
      by decide +kernel, fun n hn => goShows n (.inr (by simpa [n2] using hn))⟩, by decide, by decide, by decide⟩
  rw [n2] at hn
  cases List.mem_singleton.1 hn
  exact known goTable Go.lang cfg c!"print" ⟨.static c!"fmt", .static c!"Println"⟩ (by decide +kernel) (by decide +kernel)
    (by decide +kernel)

/-- One file for both, with each import once. -/
example : ∃ cs, goTexts.Makes (host goTable) () cs ∧
    toFileVec Go.lang ⟨.tab, ['\n']⟩ (Go.file (some (.static c!"main")) (history cs)) = some
      [c!"package main", [], c!"import \"fmt\"", c!"import \"net/http\"", [], c!"func main() {", c!"\tr, err := http.Get(url)",
        c!"\tif err == nil {", c!"\t\tfmt.Println(r)", c!"\t}", c!"}", [], c!"func f() { fmt.Println(1) }"] := by
  obtain ⟨cs, h1, ms, h2, h3, h4⟩ := C116_go (some (.static c!"main")) (host goTable) (full _) () ⟨.tab, ['\n']⟩ goValues
    goTexts (goTexts_ok _)
  have hu : goTexts.uses (host goTable) () = [⟨.static c!"net/http", .static c!"Get"⟩, ⟨.static c!"fmt", .static c!"Println"⟩,
      ⟨.static c!"fmt", .static c!"Println"⟩] := by decide +kernel
  have hm : ms = [.static c!"fmt", .static c!"net/http"] := by
    refine sorted_ext _ _ h3 (by unfold Sorted; decide +kernel) (fun m => ?_)
    rw [h4, hu]
    simp only [List.mem_cons, List.not_mem_nil, or_false, exists_eq_or_imp, exists_eq_left]
    constructor
    · rintro (h | h | h)
      · exact .inr h.symm
      · exact .inl h.symm
      · exact .inl h.symm
    · rintro (h | h)
      · exact .inr (.inl h.symm)
      · exact .inl h.symm
  exact ⟨cs, h1, h2.trans (by rw [hm]; decide +kernel)⟩

/-- Two members of a class in Java; the second has the other `List` of the first. -/
def javaTexts : Invocations := .both (.text 7 0 90 [c!"$list<$string> a;"]) [.push] (.text 20 4 400 [c!"$awt b;"])

def javaUsed : List Java.Import := [⟨.static c!"java.util", .static c!"List"⟩, ⟨.static c!"java.lang", .static c!"String"⟩,
  ⟨.static c!"java.awt", .static c!"List"⟩]

theorem javaTexts_ok (cfg : Config) :
    javaTexts.Ok (host javaTable) () (Java.lang none (merely javaUsed)) cfg javaValues := by
  have one : ∀ (n : Str) (i : Java.Import), javaTable n = some i →
      ((Java.lang none (merely javaUsed)).langItem i).flatten ≠ [] →
      Shows (Java.lang none (merely javaUsed)) ((host javaTable).value () [n]) := by
    intro n i h hi
    have e : (host javaTable).value () [n] = [.appendLang i] := by simp [host, h]
    rw [e]
    exact ⟨hi, [], .lang 0 i, rfl, hi⟩
  have n1 : names (Macro.textOf [c!"$list<$string> a;"]) = [c!"list", c!"string"] := by decide +kernel
  have n2 : names (Macro.textOf [c!"$awt b;"]) = [c!"awt"] := by decide +kernel
  refine ⟨⟨⟨by decide +kernel, by decide +kernel, by decide +kernel, by decide +kernel, by decide +kernel, fun n hn => ?_⟩,
      by decide +kernel, fun n hn => ?_⟩,
    ⟨⟨by decide +kernel, by decide +kernel, by decide +kernel, by decide +kernel, by decide +kernel, fun n hn => ?_⟩,
      by decide +kernel, fun n hn => ?_⟩, by decide, by decide, by decide⟩
  · simp only [n1, List.mem_cons, List.not_mem_nil, or_false] at hn
    rcases hn with rfl | rfl
    · exact known javaTable _ cfg c!"list" ⟨.static c!"java.util", .static c!"List"⟩ (by decide +kernel) (by decide +kernel)
        (by decide +kernel)
    · exact known javaTable _ cfg c!"string" ⟨.static c!"java.lang", .static c!"String"⟩ (by decide +kernel)
        (by decide +kernel) (by decide +kernel)
  · simp only [n1, List.mem_cons, List.not_mem_nil, or_false] at hn
    rcases hn with rfl | rfl
    · exact one _ ⟨.static c!"java.util", .static c!"List"⟩ (by decide +kernel) (by decide +kernel)
    · exact one _ ⟨.static c!"java.lang", .static c!"String"⟩ (by decide +kernel) (by decide +kernel)
  · rw [n2] at hn
    cases List.mem_singleton.1 hn
    exact known javaTable _ cfg c!"awt" ⟨.static c!"java.awt", .static c!"List"⟩ (by decide +kernel) (by decide +kernel)
      (by decide +kernel)
  · rw [n2] at hn
    cases List.mem_singleton.1 hn
    exact one _ ⟨.static c!"java.awt", .static c!"List"⟩ (by decide +kernel) (by decide +kernel)

open JavaFile in
/-- The import of the second text is why the first has the full name of its class. -/
example : ∃ cs, javaTexts.Makes (host javaTable) () cs ∧ ∃ ims : List (Str × Str),
    toFileVec (Java.lang none (history cs)) ⟨.space 4, ['\n']⟩ (Java.file none (history cs)) = some
      (under (paragraphs [[], ims.map (fun e => importLine e.1 e.2)])
        [c!"java.util.List<String> a;", c!"List b;"]) ∧
    ∀ i ∈ javaUsed, Denotes ⟨none, ims, javaClasses⟩ ((Java.lang none (history cs)).langItem i).flatten i.package.text
      i.name.text := by
  have hu : javaTexts.uses (host javaTable) () = javaUsed := by decide +kernel
  obtain ⟨cs, h1, ims, h2, h3⟩ := C116_java none (host javaTable) (full _) () ⟨.space 4, ['\n']⟩ javaValues javaTexts
    javaClasses (by rw [hu]; exact javaTexts_ok _) (by
      rw [hu]
      unfold JavaFile.Proper javaClasses
      decide +kernel)
  rw [hu] at h3
  refine ⟨cs, h1, ims, h2.trans ?_, h3.2 ?_⟩
  · have : javaTexts.lines ⟨.space 4, ['\n']⟩ javaValues = [c!"java.util.List<String> a;", c!"List b;"] := by
      decide +kernel
    rw [this]
    rfl
  · unfold JavaFile.Apart Foreign javaClasses
    exact ⟨by decide +kernel, by decide +kernel⟩

end SourceFileSample

end Genco.Props
