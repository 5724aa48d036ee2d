import Verif.Props.Rounds
import Verif.Props.Writers
import Verif.Props.Rust
import Verif.Props.Js
import Verif.Props.Python
import Verif.Props.Java
import Verif.Props.Csharp
import Verif.Props.Nix
import Verif.Props.Simple
import Verif.Props.Builders

/-!
# C80: files from source text
-/

set_option autoImplicit false

namespace Genco.Props

open Genco Macro Spec Spec.Text Spec.MacroFile Spec.Template Proofs.TextFile Proofs.Rounds

variable {ι E Env : Type}

/-! ## Imports of a macro -/

theorem imported_append (a b : List (Mark ι)) : imported (a ++ b) = imported a ++ imported b := by
  simp [imported]

theorem imported_marks (cs : List (Call ι)) : imported (marks cs) = inserted cs := by
  induction cs with
  | nil => rfl
  | cons c cs ih =>
    have h : marks (c :: cs) = markOf c ++ marks cs := rfl
    have h' : inserted (c :: cs) = (callItems c).filterMap langOf ++ inserted cs := by simp [inserted]
    rw [h, h', imported_append, ih]
    congr 1
    have gen : markOf c = [.call c] → imported (markOf c) = (callItems c).filterMap langOf := by
      intro e; rw [e]; simp [imported]
    cases c with
    | append i =>
      cases i with
      | literal s =>
        cases s with
        | box s => exact gen rfl
        | static s =>
          show imported (s.map Mark.char) = []
          simp [imported]
      | _ => exact gen rfl
    | _ => exact gen rfl

theorem imported_bare (ms : List (Mark ι)) : imported (MacroFile.bare ms) = imported ms := by
  induction ms with
  | nil => rfl
  | cons m ms ih =>
    rw [MacroFile.bare, List.filter_cons]
    split
    · rw [← List.singleton_append, ← List.singleton_append (x := m) (l := ms), imported_append, imported_append]
      exact congrArg _ ih
    · rename_i h
      rw [← List.singleton_append (x := m) (l := ms), imported_append, show imported [m] = [] from ?_]
      · exact ih
      · cases m with
        | char c => exact absurd rfl h
        | call c => cases c <;> first | rfl | exact absurd rfl h

/-- C80. What a macro imports is what its parts import, in the order in which they are written, for
nodes of all kinds: loops import what their rounds import, conditions and matches what the branch
imports that is taken. Where the nodes are in the source does not matter. -/
theorem C80_imports (H : Host ι E Env) (span : Option Cur) (ns : List (Node E)) (r : Bool) (ss : List (Stmt ι E))
    (h : Macro.quote span ns = .ok (r, ss)) (ρ : Env) :
    (history (runBlock H ρ ss)).walkImports.reverse = imported (told H ns ρ).2 := by
  rw [C03_walk_imports, List.reverse_reverse, ← C55_content H span ns r ss h ρ, imported_bare, imported_marks]

/-- Texts are a whole if there is something in them. -/
theorem whole_texts (ts : List Str) (h : ts.flatten ≠ []) : Whole (seen (ts.map .text)) := by
  have key : ∀ a ∈ seen (ts.map Act.text), ∃ s, a = .text s ∧ s ≠ [] := by
    intro a ha
    obtain ⟨ha, hn⟩ := List.mem_filter.1 ha
    obtain ⟨s, -, rfl⟩ := List.mem_map.1 ha
    exact ⟨s, rfl, fun e => by subst e; simp at hn⟩
  have hne : seen (ts.map Act.text) ≠ [] := by
    intro e
    refine h (List.flatten_eq_nil_iff.2 (fun s hs => ?_))
    by_contra hc
    have : Act.text s ∈ seen (ts.map Act.text) := List.mem_filter.2 ⟨List.mem_map_of_mem hs, by simpa using hc⟩
    rw [e] at this
    cases this
  refine LineActs.whole ⟨fun a ha => ?_, ?_, ?_⟩
  · obtain ⟨s, rfl, -⟩ := key a ha; rfl
  · obtain ⟨a, r, e⟩ := List.exists_cons_of_ne_nil hne
    obtain ⟨s, rfl, hs⟩ := key a (by rw [e]; simp)
    exact ⟨s, r, e, hs⟩
  · obtain ⟨r, a, e⟩ := (List.eq_nil_or_concat _).resolve_left hne
    rw [List.concat_eq_append] at e
    obtain ⟨s, rfl, hs⟩ := key a (by rw [e]; simp)
    exact ⟨r, s, e, hs⟩

/-- C80. An import is a block of code of one line, so a name in a text may stand for one. -/
theorem C80_import (L : Lang ι) (cfg : Config) (i : ι) (h : (L.langItem i).flatten ≠ []) :
    BlockOf L cfg [.appendLang i] [(L.langItem i).flatten] := by
  refine ⟨⟨⟨_, [], rfl, rfl⟩, ⟨[], _, rfl, rfl⟩, .item (.lang 0 i) .nil, rfl, rfl, ?_⟩,
    .inr (fun x hx => by cases List.mem_singleton.1 hx; rfl), toVec_one L cfg i⟩
  have : (Code.item (.lang 0 i) .nil).acts L cfg = (L.langItem i).map .text := by
    simp [Code.acts, plainActs]
  rw [this]
  exact whole_texts _ h

/-! ## Source text -/

/-- C80. The stream made of source text: it has the imports of the names in the text, in their order,
and is rendered as the text with the values in the places of the names. It starts with text. -/
theorem C80_stream (K : Host ι Macro.Code Env) (hK : Full K) (ρ : Env) (L : Lang ι) (esc : Char → Str)
    (hQ : ∀ s, L.writeQuoted s = s.map esc) (cfg : Config) (v : Str → List Str) (line k off : Nat) (ls : List Str)
    (h : Written K ρ L cfg v k ls) :
    ∃ cs, Invocation.make .nightly K ρ ⟨⟨line, k, off⟩, ls⟩ = some (history cs) ∧
      inserted cs = uses K ρ (Macro.textOf ls) ∧ leadsWithSpace L.langItem (history cs).items = false ∧
      toVec L cfg (history cs).items = some (written cfg v k ls) ∧
      (lastDepth [] (pad k ls) = 0 → BlockOf L cfg cs (written cfg v k ls)) := by
  obtain ⟨ts, ns, r, ss, h1, h2, h3, h4, h5, h6, h7⟩ := source_lines syn K.anywhere (fun ρ e => hK.1 ρ _)
    (fun ρ e => hK.2 ρ _) ρ L esc hQ cfg v line k off ls h.lines h.holed h.nested h.offside h.ink
    (fun n hn => known_given (h.known n hn))
  have hq := (C79_quote .nightly ⟨⟨line, k, off⟩, ls⟩ ss).2 ⟨ts, ns, r, h1, (parses_iff _ _ _).1 h2, h3⟩
  exact ⟨_, by rw [Invocation.make, hq]; rfl, h6, h7, h4, h5⟩

/-- C80. The same on other compilers, where the text is put on one line. -/
theorem C80_stream_one_line (K : Host ι Macro.Code Env) (hK : Full K) (ρ : Env) (L : Lang ι) (esc : Char → Str)
    (hQ : ∀ s, L.writeQuoted s = s.map esc) (cfg : Config) (v : Str → List Str) (p : Place) (ls : List Str)
    (hp : Holed (Macro.textOf ls)) (hn : nested [] (Macro.textOf ls) = true)
    (hi : blank (oneLine (Macro.textOf ls)) = false)
    (hg : ∀ n ∈ names (Macro.textOf ls), Known K ρ L cfg n (v n)) :
    ∃ cs, Invocation.make .stable K ρ ⟨p, ls⟩ = some (history cs) ∧
      inserted cs = uses K ρ (Macro.textOf ls) ∧ leadsWithSpace L.langItem (history cs).items = false ∧
      BlockOf L cfg cs (fill v (tidy (oneLine (Macro.textOf ls)))) := by
  obtain ⟨ts, ns, r, ss, h1, h2, h3, h4, h5, h6⟩ := source_one_line syn K.anywhere (fun ρ e => hK.1 ρ _)
    (fun ρ e => hK.2 ρ _) ρ L esc hQ cfg v p (Macro.textOf ls) hp hn hi (fun n hn => known_given (hg n hn))
  have hq := (C79_quote .stable ⟨p, ls⟩ ss).2 ⟨ts, ns, r, h1, (parses_iff _ _ _).1 h2, h3⟩
  exact ⟨_, by rw [Invocation.make, hq]; rfl, h5, h6, h4⟩

theorem file_text {L : Lang ι} {cfg : Config} {streams : List (List (Item ι))} {items : List (Item ι)} {hd body : List Str}
    (h1 : toFileVec L cfg streams = (toVec L cfg items).map (fileLines hd)) (h2 : toVec L cfg items = some body) :
    toFileString L cfg streams = some (fileText cfg (fileLines hd body)) := by
  rw [C12_file_trailing_newline, h1, h2]
  rfl

theorem walk_merely {cs : List (Call ι)} {l : List ι} (h : inserted cs = l) :
    (merely l).walkImports = (history cs).walkImports := by
  rw [merely, C03_walk_imports, C03_walk_imports, h]
  congr 1
  clear h
  induction l with
  | nil => rfl
  | cons i l ih => exact congrArg (i :: ·) ih

section Go

open GoFile

/-- C80 for Go. The file made of source text is the package line, one import for every module of the
imports of the names in the text, sorted, and the text with the names replaced. -/
theorem C80_go (package : Option ItemStr) (K : Host Go.Import Macro.Code Env) (hK : Full K) (ρ : Env) (cfg : Config)
    (v : Str → List Str) (line k off : Nat) (ls : List Str) (h : Written K ρ Go.lang cfg v k ls) :
    ∃ t, Invocation.make .nightly K ρ ⟨⟨line, k, off⟩, ls⟩ = some t ∧ ∃ ms : List ItemStr,
      toFileString Go.lang cfg (Go.file package t) = some (fileText cfg (fileLines (paragraphs
        [(package.map (fun p => packageLine p.text)).toList, ms.map (fun m => importLine m.text)]) (written cfg v k ls))) ∧
      Sorted ms ∧ ∀ m, m ∈ ms ↔ ∃ i ∈ uses K ρ (Macro.textOf ls), i.module = m := by
  obtain ⟨cs, h1, h2, h3, h4, -⟩ := C80_stream K hK ρ Go.lang _ (fun _ => rfl) cfg v line k off ls h
  obtain ⟨ms, k1, k2, k3⟩ := C44_go package cfg cs (loses_of_leads _ _ h3)
  exact ⟨_, h1, ms, file_text k1 h4, k2, by rw [← h2]; exact k3⟩

end Go

section C

open CFile

/-- C80 for C. One line for every header of the includes of the names in the text. -/
theorem C80_c (K : Host C.Import Macro.Code Env) (hK : Full K) (ρ : Env) (cfg : Config)
    (v : Str → List Str) (line k off : Nat) (ls : List Str) (h : Written K ρ C.lang cfg v k ls) :
    ∃ t, Invocation.make .nightly K ρ ⟨⟨line, k, off⟩, ls⟩ = some t ∧ ∃ ms : List (ItemStr × Bool),
      toFileString C.lang cfg (C.file t) = some (fileText cfg (fileLines
        (ms.map (fun m => includeLine m.1.text m.2)) (written cfg v k ls))) ∧
      Sorted ms ∧ ∀ m, m ∈ ms ↔ ∃ i ∈ uses K ρ (Macro.textOf ls), (i.path, i.system) = m := by
  obtain ⟨cs, h1, h2, h3, h4, -⟩ := C80_stream K hK ρ C.lang _ (fun _ => rfl) cfg v line k off ls h
  obtain ⟨ms, k1, k2, k3⟩ := C47_c cfg cs (loses_of_leads _ _ h3)
  exact ⟨_, h1, ms, file_text k1 h4, k2, by rw [← h2]; exact k3⟩

end C

section Swift

open SwiftFile

/-- C80 for Swift. -/
theorem C80_swift (K : Host Swift.Import Macro.Code Env) (hK : Full K) (ρ : Env) (cfg : Config)
    (v : Str → List Str) (line k off : Nat) (ls : List Str) (h : Written K ρ Swift.lang cfg v k ls) :
    ∃ t, Invocation.make .nightly K ρ ⟨⟨line, k, off⟩, ls⟩ = some t ∧ ∃ ms : List ItemStr,
      toFileString Swift.lang cfg (Swift.file t) = some (fileText cfg (fileLines
        (ms.map (fun m => importLine m.text)) (written cfg v k ls))) ∧
      Sorted ms ∧ ∀ m, m ∈ ms ↔ ∃ i ∈ uses K ρ (Macro.textOf ls), i.module = m := by
  obtain ⟨cs, h1, h2, h3, h4, -⟩ := C80_stream K hK ρ Swift.lang _ (fun _ => rfl) cfg v line k off ls h
  obtain ⟨ms, k1, k2, k3⟩ := C47_swift cfg cs (loses_of_leads _ _ h3)
  exact ⟨_, h1, ms, file_text k1 h4, k2, by rw [← h2]; exact k3⟩

end Swift

section Dart

open DartFile

/-- C80 for Dart. -/
theorem C80_dart (K : Host Dart.Import Macro.Code Env) (hK : Full K) (ρ : Env) (cfg : Config)
    (v : Str → List Str) (line k off : Nat) (ls : List Str) (h : Written K ρ Dart.lang cfg v k ls) :
    ∃ t, Invocation.make .nightly K ρ ⟨⟨line, k, off⟩, ls⟩ = some t ∧ ∃ ms : List (ItemStr × Option ItemStr),
      toFileString Dart.lang cfg (Dart.file t) = some (fileText cfg (fileLines
        (ms.map (fun m => importLine m.1.text (m.2.map ItemStr.text))) (written cfg v k ls))) ∧
      Sorted ms ∧ ∀ m, m ∈ ms ↔
        ∃ i ∈ uses K ρ (Macro.textOf ls), i.path.text ≠ coreLibrary ∧ (i.path, i.alias) = m := by
  obtain ⟨cs, h1, h2, h3, h4, -⟩ := C80_stream K hK ρ Dart.lang _ (fun _ => rfl) cfg v line k off ls h
  obtain ⟨ms, k1, k2, k3⟩ := C46_dart cfg cs (loses_of_leads _ _ h3)
  exact ⟨_, h1, ms, file_text k1 h4, k2, by rw [← h2]; exact k3⟩

end Dart

section Rust

open Rust RustFile

/-- C80 for Rust, given that no name is asked for in two ways (C39): the file is `use` lines under which
every reference in the text is to the item that its import asks for, and the text with the names
replaced. -/
theorem C80_rust (c : Mode) (K : Host Rust.Import Macro.Code Env) (hK : Full K) (ρ : Env) (cfg : Config)
    (v : Str → List Str) (line k off : Nat) (ls : List Str) (h : Written K ρ (Rust.lang c) cfg v k ls)
    (hp : ∀ i ∈ uses K ρ (Macro.textOf ls), Proper i)
    (hc : ∀ i ∈ uses K ρ (Macro.textOf ls), ∀ j ∈ uses K ρ (Macro.textOf ls), ∀ n f f', Claims c i n f → Claims c j n f' →
      f = f') :
    ∃ t, Invocation.make .nightly K ρ ⟨⟨line, k, off⟩, ls⟩ = some t ∧ ∃ us : List Use,
      toFileString (Rust.lang c) cfg (Rust.file c t) =
        some (fileText cfg (fileLines (us.map Use.text) (written cfg v k ls))) ∧
      ∀ i ∈ uses K ρ (Macro.textOf ls), Resolves us ((Rust.lang c).langItem i).flatten (target i) := by
  obtain ⟨cs, h1, h2, h3, h4, -⟩ := C80_stream K hK ρ (Rust.lang c) _ (fun _ => rfl) cfg v line k off ls h
  rw [← h2] at hp hc
  obtain ⟨us, k1, k2⟩ := C39_rust_scope c cfg cs (loses_of_leads _ _ h3) hp hc
  exact ⟨_, h1, us, file_text k1 h4, by rw [← h2]; exact k2⟩

end Rust

section Js

open JsFile

/-- C80 for JavaScript, given that different imports have different names and modules have one default
name (C41): every reference in the text is bound to what its import asks for, and no name is bound
twice. -/
theorem C80_js (rel : List Js.Component → Str) (K : Host Js.Import Macro.Code Env) (hK : Full K) (ρ : Env) (cfg : Config)
    (v : Str → List Str) (line k off : Nat) (ls : List Str) (h : Written K ρ Js.lang cfg v k ls)
    (hc : NoClash (uses K ρ (Macro.textOf ls))) (ho : OneDefault (uses K ρ (Macro.textOf ls))) :
    ∃ t, Invocation.make .nightly K ρ ⟨⟨line, k, off⟩, ls⟩ = some t ∧ ∃ ds : List Decl,
      toFileString Js.lang cfg (Js.file rel t) =
        some (fileText cfg (fileLines (ds.map Decl.text) (written cfg v k ls))) ∧
      ((ds.flatMap Decl.bindings).map Prod.fst).Nodup ∧
      ∀ i ∈ uses K ρ (Macro.textOf ls), ((Js.lang.langItem i).flatten, target rel i) ∈ ds.flatMap Decl.bindings := by
  obtain ⟨cs, h1, h2, h3, h4, -⟩ := C80_stream K hK ρ Js.lang _ (fun _ => rfl) cfg v line k off ls h
  rw [← h2] at hc ho
  obtain ⟨ds, k1, k2, k3⟩ := C41_js_partial rel cfg cs (loses_of_leads _ _ h3) hc ho
  exact ⟨_, h1, ds, file_text k1 h4, k2, by rw [← h2]; exact k3⟩

end Js

section Python

open PythonFile

/-- C80 for Python, given that no name is claimed for two values (C45). -/
theorem C80_python (K : Host Python.Import Macro.Code Env) (hK : Full K) (ρ : Env) (cfg : Config)
    (v : Str → List Str) (line k off : Nat) (ls : List Str) (h : Written K ρ Python.lang cfg v k ls)
    (hp : ∀ i ∈ uses K ρ (Macro.textOf ls), Proper i)
    (hc : ∀ i ∈ uses K ρ (Macro.textOf ls), ∀ j ∈ uses K ρ (Macro.textOf ls), ∀ n f f', Claims i n f → Claims j n f' → f = f') :
    ∃ t, Invocation.make .nightly K ρ ⟨⟨line, k, off⟩, ls⟩ = some t ∧ ∃ ss : List PythonFile.Stmt,
      toFileString Python.lang cfg (Python.file t) =
        some (fileText cfg (fileLines (ss.map PythonFile.Stmt.text) (written cfg v k ls))) ∧
      ∀ i ∈ uses K ρ (Macro.textOf ls), Usual i →
        Resolves ss (Python.lang.langItem i).flatten (moduleOf i) (target i) := by
  obtain ⟨cs, h1, h2, h3, h4, -⟩ := C80_stream K hK ρ Python.lang _ (fun _ => rfl) cfg v line k off ls h
  rw [← h2] at hp hc
  obtain ⟨ss, k1, k2⟩ := C45_python_partial cfg cs (loses_of_leads _ _ h3) hp
  exact ⟨_, h1, ss, file_text k1 h4, by rw [← h2]; exact fun i hi hu => (k2 i hi).2 ⟨hu, hc i hi⟩⟩

end Python

section Nix

open NixFile

/-- C80 for Nix, given that the values of variables are expressions (C48). -/
theorem C80_nix (isScoped : Bool) (K : Host Nix.Import Macro.Code Env) (hK : Full K) (ρ : Env) (cfg : Config)
    (v : Str → List Str) (line k off : Nat) (ls : List Str) (h : Written K ρ Nix.lang cfg v k ls)
    (hv : Exprs cfg (uses K ρ (Macro.textOf ls))) :
    ∃ t, Invocation.make .nightly K ρ ⟨⟨line, k, off⟩, ls⟩ = some t ∧ ∃ d : Decls,
      toFileString Nix.lang cfg (Nix.file isScoped t) =
        some (fileText cfg (fileLines (d.lines cfg) (written cfg v k ls))) ∧
      (d.args = none ↔ isScoped = true) ∧ ∀ i ∈ uses K ρ (Macro.textOf ls), Declared cfg d i := by
  obtain ⟨cs, h1, h2, h3, h4, -⟩ := C80_stream K hK ρ Nix.lang _ (fun _ => rfl) cfg v line k off ls h
  rw [← h2] at hv
  obtain ⟨d, k1, k2, k3, -⟩ := C48_nix_partial cfg isScoped cs (loses_of_leads _ _ h3) hv
  exact ⟨_, h1, d, file_text k1 h4, k2, by rw [← h2]; exact k3⟩

end Nix

section Java

open JavaFile

/-- C80 for Java, given that no class of the own package or of `java.lang` shares its name with a
foreign class (C42). How a class is written depends on all imports of the stream, and so do the lines of
the values. -/
theorem C80_java (package : Option ItemStr) (K : Host Java.Import Macro.Code Env) (hK : Full K) (ρ : Env) (cfg : Config)
    (v : Str → List Str) (line k off : Nat) (ls : List Str) (classes : Str → Str → Prop)
    (h : Written K ρ (Java.lang package (merely (uses K ρ (Macro.textOf ls)))) cfg v k ls)
    (hp : ∀ i ∈ uses K ρ (Macro.textOf ls), Proper classes i)
    (ha : Apart (package.map ItemStr.text) classes ((uses K ρ (Macro.textOf ls)).map target)) :
    ∃ t, Invocation.make .nightly K ρ ⟨⟨line, k, off⟩, ls⟩ = some t ∧ ∃ ims : List (Str × Str),
      toFileString (Java.lang package t) cfg (Java.file package t) = some (fileText cfg (fileLines (paragraphs
        [(package.map (fun p => packageLine p.text)).toList, ims.map (fun e => importLine e.1 e.2)])
        (written cfg v k ls))) ∧
      ∀ i ∈ uses K ρ (Macro.textOf ls), Denotes ⟨package.map ItemStr.text, ims, classes⟩
        ((Java.lang package t).langItem i).flatten i.package.text i.name.text := by
  obtain ⟨cs, h1, h2, h3, h4, -⟩ := C80_stream K hK ρ _ _ (fun _ => rfl) cfg v line k off ls h
  have e : Java.lang package (merely (uses K ρ (Macro.textOf ls))) = Java.lang package (history cs) := by
    unfold Java.lang; rw [walk_merely h2]
  rw [e] at h3 h4
  rw [← h2] at hp ha
  obtain ⟨ims, k1, k2, -⟩ := C42_java_partial package cfg cs classes (loses_of_leads _ _ h3) hp
  exact ⟨_, h1, ims, file_text k1 h4, by rw [← h2]; exact k2.2 ha⟩

end Java

section Csharp

open CsharpFile

/-- C80 for C# without a namespace, given that no name that is written without its namespace is in
another namespace that is used (C43). -/
theorem C80_csharp (K : Host Csharp.Import Macro.Code Env) (hK : Full K) (ρ : Env) (cfg : Config)
    (v : Str → List Str) (line k off : Nat) (ls : List Str) (types : Str → Str → Prop)
    (h : Written K ρ (Csharp.lang none (merely (uses K ρ (Macro.textOf ls)))) cfg v k ls)
    (hp : ∀ i ∈ uses K ρ (Macro.textOf ls), Proper types i)
    (ha : Apart none types ((uses K ρ (Macro.textOf ls)).map target)) :
    ∃ t, Invocation.make .nightly K ρ ⟨⟨line, k, off⟩, ls⟩ = some t ∧ ∃ us : List Str,
      toFileString (Csharp.lang none t) cfg (Csharp.file none t) =
        some (fileText cfg (fileLines (us.map usingLine) (written cfg v k ls))) ∧
      ∀ i ∈ uses K ρ (Macro.textOf ls), Denotes ⟨none, us, types⟩
        ((Csharp.lang none t).langItem i).flatten i.ns.text i.name.text := by
  obtain ⟨cs, h1, h2, h3, h4, -⟩ := C80_stream K hK ρ _ _ (fun _ => rfl) cfg v line k off ls h
  have e : Csharp.lang none (merely (uses K ρ (Macro.textOf ls))) = Csharp.lang none (history cs) := by
    unfold Csharp.lang; rw [walk_merely h2]
  rw [e] at h3 h4
  rw [← h2] at hp ha
  obtain ⟨us, k1, k2, -⟩ := C43_csharp_partial none cfg cs types (fun _ => (loses_of_leads _ _ h3)) hp ha
  exact ⟨_, h1, us, file_text k1 h4, by rw [← h2]; exact k2⟩

theorem block_lines (cfg : Config) (V : (Cur → Node Unit) → List Str) (h : Cur → Node Unit) (a n b : Str) {c : Str}
    (ha : a ≠ []) (hc : c ≠ []) :
    Template.outLines cfg V [] [⟨0, 0, .word a, [(1, .word n), (1, .word b)]⟩, ⟨0, 1, .hole 0 h, []⟩, ⟨0, 0, .word c, []⟩] =
      (a ++ [' '] ++ n ++ [' '] ++ b) :: ((V h).map (movedIn cfg 1) ++ [c]) := by
  have z : marginText cfg 0 = [] := by unfold marginText; cases cfg.indentation <;> simp
  have d1 : depth 0 [] = 0 := rfl
  have d2 : depth 1 [0] = 1 := rfl
  have d3 : depth 0 [1, 0] = 0 := rfl
  simp only [Template.outLines, Row.lines, Slot.lines, List.foldl_cons, List.foldl_nil, d1, d2, d3]
  simp [seam, movedIn, z, ha, hc]

/-- A body in a block, as a template: words, a hole for the body, and a word at the end. -/
theorem block_vec (L : Lang ι) (esc : Char → Str) (hQ : ∀ s, L.writeQuoted s = s.map esc) (cfg : Config)
    (a b c : Str) (ha : a ≠ []) (hb : b ≠ []) (hc : c ≠ []) (n : ItemStr) (hn : n.text ≠ []) (cs : List (Call ι))
    (vs : List Str) (h : BlockOf L cfg cs vs) :
    toVec L cfg (history [.append (.literal (.static a)), .space, .append (.literal n), .space,
      .append (.literal (.static b)), .indent, .stream (history cs).items, .unindent, .append (.literal (.static c))]).items =
      some ((a ++ [' '] ++ n.text ++ [' '] ++ b) :: (vs.map (movedIn cfg 1) ++ [c])) := by
  have hs := C76_stream L cfg cs vs h
  have ht : ∀ s : Str, s ≠ [] → SlotOk (E := Unit) L cfg (fun _ => [.stream (history cs).items]) (fun _ => vs) (.word s) := by
    intro s h
    have := C76_text L cfg (.static s) h
    exact ⟨this.block, this.uniform, this.lines⟩
  have hall : ∀ x ∈ (⟨0, 0, .word a, [(1, .word n.text), (1, .word b)]⟩ : Template.Row Unit) ::
      [⟨0, 1, .hole 0 (fun cur => .control cur .push), []⟩, ⟨0, 0, .word c, []⟩], ∀ s ∈ x.slots,
      SlotOk L cfg (fun _ => [.stream (history cs).items]) (fun _ => vs) s := by
    intro x hx s hs'
    simp only [List.mem_cons, List.not_mem_nil, or_false] at hx
    rcases hx with rfl | rfl | rfl
    · simp only [Row.slots, List.map_cons, List.map_nil, List.mem_cons, List.not_mem_nil, or_false] at hs'
      rcases hs' with rfl | rfl | rfl
      · exact ht _ ha
      · exact ht _ hn
      · exact ht _ hb
    · simp only [Row.slots, List.map_nil, List.mem_cons, List.not_mem_nil, or_false] at hs'
      subst hs'
      exact ⟨hs.block, hs.uniform, hs.lines⟩
    · simp only [Row.slots, List.map_nil, List.mem_cons, List.not_mem_nil, or_false] at hs'
      subst hs'
      exact ht _ hc
  have hH := homQuote_of_map L esc hQ
  have hu := uniform_all L (fun _ => [.stream (history cs).items]) _ _ (fun x hx s hs' => (hall x hx s hs').uniform)
  obtain ⟨v1, -⟩ := vec_template L hH cfg (fun _ => [.stream (history cs).items]) (fun _ => vs) _ _ hall
  rw [block_lines cfg _ _ _ _ _ ha hc] at v1
  rw [← v1]
  refine (cut_vec L hH cfg hu ?_).symm
  simp [allCalls, slotCalls, restCalls, tailCalls, breakCalls, depth, enclosing, callItems, letters, letter, WsCall.call,
    ItemStr.text]

/-- A body in a namespace. -/
theorem namespace_block (L : Lang Csharp.Import) (esc : Char → Str) (hQ : ∀ s, L.writeQuoted s = s.map esc) (cfg : Config)
    (n : ItemStr) (hn : n.text ≠ []) (cs : List (Call Csharp.Import)) (vs : List Str) (hb : BlockOf L cfg cs vs) :
    toVec L cfg (inNamespace (some n) (history cs)) =
      some (namespaceLine n.text :: (vs.map (movedIn cfg 1) ++ ["}".toList])) := by
  have := block_vec L esc hQ cfg "namespace".toList "{".toList "}".toList (by decide) (by decide) (by decide) n hn cs vs hb
  have e : namespaceLine n.text = "namespace".toList ++ [' '] ++ n.text ++ [' '] ++ "{".toList := by
    have e1 : "namespace ".toList = "namespace".toList ++ [' '] := by decide
    have e2 : " {".toList = [' '] ++ "{".toList := by decide
    exact (congrArg₂ (fun x y => x ++ n.text ++ y) e1 e2).trans (List.append_assoc _ _ _).symm
  rw [e, ← this]
  unfold inNamespace namespaceOpen
  simp only [List.cons_append, List.nil_append]

/-- C80 for C# with a namespace, for text whose last line is on the level of the first: the text is moved
in by one level. -/
theorem C80_csharp_namespace (n : ItemStr) (hn : n.text ≠ []) (K : Host Csharp.Import Macro.Code Env) (hK : Full K)
    (ρ : Env) (cfg : Config) (v : Str → List Str) (line k off : Nat) (ls : List Str) (types : Str → Str → Prop)
    (h : Written K ρ (Csharp.lang (some n) (merely (uses K ρ (Macro.textOf ls)))) cfg v k ls)
    (hd : lastDepth [] (pad k ls) = 0)
    (hp : ∀ i ∈ uses K ρ (Macro.textOf ls), Proper types i)
    (ha : Apart (some n.text) types ((uses K ρ (Macro.textOf ls)).map target)) :
    ∃ t, Invocation.make .nightly K ρ ⟨⟨line, k, off⟩, ls⟩ = some t ∧ ∃ us : List Str,
      toFileString (Csharp.lang (some n) t) cfg (Csharp.file (some n) t) =
        some (fileText cfg (fileLines (us.map usingLine)
          (namespaceLine n.text :: ((written cfg v k ls).map (movedIn cfg 1) ++ ["}".toList])))) ∧
      ∀ i ∈ uses K ρ (Macro.textOf ls), Denotes ⟨some n.text, us, types⟩
        ((Csharp.lang (some n) t).langItem i).flatten i.ns.text i.name.text := by
  obtain ⟨cs, h1, h2, h3, -, h4⟩ := C80_stream K hK ρ _ _ (fun _ => rfl) cfg v line k off ls h
  have e : Csharp.lang (some n) (merely (uses K ρ (Macro.textOf ls))) = Csharp.lang (some n) (history cs) := by
    unfold Csharp.lang; rw [walk_merely h2]
  rw [e] at h3 h4
  rw [← h2] at hp ha
  obtain ⟨us, k1, k2, -⟩ := C43_csharp_partial (some n) cfg cs types (fun _ => (loses_of_leads _ _ h3)) hp ha
  exact ⟨_, h1, us, file_text k1 (namespace_block _ _ (fun _ => rfl) cfg n hn cs _ (h4 hd)), by rw [← h2]; exact k2⟩

end Csharp

/-- A sorted list is given by its elements, so the headers above are given by the imports. -/
theorem sorted_ext {α : Type} [Ord α] [Std.TransOrd α] [Std.LawfulEqOrd α] (a b : List α) (ha : Sorted a) (hb : Sorted b)
    (h : ∀ x, x ∈ a ↔ x ∈ b) : a = b := by
  induction a generalizing b with
  | nil =>
    cases b with
    | nil => rfl
    | cons y b => exact absurd ((h y).2 (by simp)) (by simp)
  | cons x a ih =>
    cases b with
    | nil => exact absurd ((h x).1 (by simp)) (by simp)
    | cons y b =>
      unfold Sorted at ha hb
      rw [List.pairwise_cons] at ha hb
      have irr : ∀ z : α, compare z z ≠ .lt := fun z e => by
        rw [Std.ReflCmp.compare_self (cmp := (compare : α → α → Ordering))] at e; cases e
      have hxy : x = y := by
        rcases List.mem_cons.1 ((h x).1 (by simp)) with e | e
        · exact e
        · rcases List.mem_cons.1 ((h y).2 (by simp)) with e' | e'
          · exact e'.symm
          · exact absurd (Std.TransCmp.lt_trans (ha.1 y e') (hb.1 x e)) (irr x)
      subst hxy
      refine congrArg _ (ih b ha.2 hb.2 (fun z => ⟨fun hz => ?_, fun hz => ?_⟩))
      · exact (List.mem_cons.1 ((h z).1 (by simp [hz]))).resolve_left (fun e => irr x (e ▸ ha.1 z hz))
      · exact (List.mem_cons.1 ((h z).2 (by simp [hz]))).resolve_left (fun e => irr x (e ▸ hb.1 z hz))

/-! ## Samples -/

namespace SourceFileSample

/-- Names stand for imports. -/
def host (table : Str → Option ι) : Host ι Macro.Code Unit where
  value _ e :=
    match e with
    | [n] => ((table n).map Call.appendLang).toList
    | _ => []
  scope _ _ := []
  iter _ _ _ := []
  test _ _ := some ()
  pick _ _ _ _ := none
  bind _ _ _ := ()

theorem full (table : Str → Option ι) : Full (host table) := by
  refine ⟨fun ρ e c hc => ?_, fun ρ e c hc => by cases hc⟩
  unfold host at hc
  simp only at hc
  split at hc
  · rename_i n
    cases h : table n with
    | none => rw [h] at hc; cases hc
    | some i =>
      rw [h] at hc
      cases List.mem_singleton.1 hc
      rintro ⟨⟩
  · cases hc

theorem known (table : Str → Option ι) (L : Lang ι) (cfg : Config) (n : Str) (i : ι) (h : table n = some i)
    (hk : n ∉ keywords) (hi : (L.langItem i).flatten ≠ []) : Known (host table) () L cfg n [(L.langItem i).flatten] := by
  refine ⟨hk, ?_⟩
  have : (host table).value () [n] = [.appendLang i] := by simp [host, h]
  rw [this]
  exact C80_import L cfg i hi

/-! ### Go -/

def goTable (n : Str) : Option Go.Import :=
  if n = c!"get" then some ⟨.static c!"net/http", .static c!"Get"⟩
  else if n = c!"print" then some ⟨.static c!"fmt", .static c!"Println"⟩ else none

def goText : List Str := [c!"func main() {", c!"        r, err := $get(url)", c!"        if err == nil {", c!"            $print(r)",
  c!"        }", c!"    }"]

def goValues (n : Str) : List Str := if n = c!"get" then [c!"http.Get"] else [c!"fmt.Println"]

theorem goWritten (cfg : Config) : Written (host goTable) () Go.lang cfg goValues 4 goText := by
  refine ⟨by decide +kernel, by decide +kernel, by decide +kernel, by decide +kernel, by decide +kernel, ?_⟩
  intro n hn
  have h : names (Macro.textOf goText) = [c!"get", c!"print"] := by decide +kernel
  rw [h] at hn
  simp only [List.mem_cons, List.not_mem_nil, or_false] at hn
  rcases hn with rfl | rfl
  · exact known goTable Go.lang cfg c!"get" ⟨.static c!"net/http", .static c!"Get"⟩ (by decide +kernel) (by decide +kernel) (by decide +kernel)
  · exact known goTable Go.lang cfg c!"print" ⟨.static c!"fmt", .static c!"Println"⟩ (by decide +kernel) (by decide +kernel) (by decide +kernel)

/-- The file for the text. -/
example : ∃ t, Invocation.make .nightly (host goTable) () ⟨⟨7, 4, 90⟩, goText⟩ = some t ∧
    toFileString Go.lang ⟨.tab, ['\n']⟩ (Go.file (some (.static c!"main")) t) = some
      c!"package main\n\nimport \"fmt\"\nimport \"net/http\"\n\nfunc main() {\n\tr, err := http.Get(url)\n\tif err == nil {\n\t\tfmt.Println(r)\n\t}\n}\n" := by
  obtain ⟨t, h1, ms, h2, h3, h4⟩ := C80_go (some (.static c!"main")) (host goTable) (full _) () ⟨.tab, ['\n']⟩ goValues 7 4 90
    goText (goWritten _)
  have hu : uses (host goTable) () (Macro.textOf goText) =
      [⟨.static c!"net/http", .static c!"Get"⟩, ⟨.static c!"fmt", .static c!"Println"⟩] := by decide +kernel
  have hm : ms = [.static c!"fmt", .static c!"net/http"] := by
    refine sorted_ext _ _ h3 (by unfold Sorted; decide +kernel) (fun m => ?_)
    rw [h4, hu]
    simp only [List.mem_cons, List.not_mem_nil, or_false, exists_eq_or_imp, exists_eq_left]
    exact ⟨fun h => h.symm.imp Eq.symm Eq.symm, fun h => h.symm.imp Eq.symm Eq.symm⟩
  exact ⟨t, h1, h2.trans (by rw [hm]; decide +kernel)⟩

/-! ### Rust -/

open RustFile in
def rustTable (n : Str) : Option Rust.Import :=
  if n = c!"map" then some (Rust.import_ (.static c!"std::collections") (.static c!"HashMap"))
  else if n = c!"rng" then some (Rust.import_ (.static c!"rand::rngs") (.static c!"OsRng")).qualified else none

def rustText : List Str := [c!"let mut m: $map<u8, u8> = $map::new();", c!"", c!"while m.len() < 9 {",
  c!"  m.insert($rng.next(), 1);", c!"}"]

def rustValues (n : Str) : List Str := if n = c!"map" then [c!"HashMap"] else [c!"rngs::OsRng"]

theorem rustWritten (cfg : Config) : Written (host rustTable) () (Rust.lang .direct) cfg rustValues 0 rustText := by
  refine ⟨by decide +kernel, by decide +kernel, by decide +kernel, by decide +kernel, by decide +kernel, ?_⟩
  intro n hn
  have h : names (Macro.textOf rustText) = [c!"map", c!"map", c!"rng"] := by decide +kernel
  rw [h] at hn
  simp only [List.mem_cons, List.not_mem_nil, or_false] at hn
  have h1 := known rustTable (Rust.lang .direct) cfg c!"map" (Rust.import_ (.static c!"std::collections") (.static c!"HashMap"))
    (by decide +kernel) (by decide +kernel) (by decide +kernel)
  rcases hn with rfl | rfl | rfl
  · exact h1
  · exact h1
  · exact known rustTable (Rust.lang .direct) cfg c!"rng" (Rust.import_ (.static c!"rand::rngs") (.static c!"OsRng")).qualified
      (by decide +kernel) (by decide +kernel) (by decide +kernel)

theorem rustUses : uses (host rustTable) () (Macro.textOf rustText) =
    [Rust.import_ (.static c!"std::collections") (.static c!"HashMap"),
      Rust.import_ (.static c!"std::collections") (.static c!"HashMap"),
      (Rust.import_ (.static c!"rand::rngs") (.static c!"OsRng")).qualified] := by decide +kernel

open RustFile in
/-- The text meets the other hypotheses. -/
theorem rustApart : (∀ i ∈ uses (host rustTable) () (Macro.textOf rustText), Proper i) ∧
    ∀ i ∈ uses (host rustTable) () (Macro.textOf rustText), ∀ j ∈ uses (host rustTable) () (Macro.textOf rustText), ∀ n f f',
      Claims .direct i n f → Claims .direct j n f' → f = f' := by
  have hr : LastSegment c!"rand::rngs" c!"rngs" := ⟨by decide, .inr ⟨c!"rand", by decide⟩⟩
  have hc : LastSegment c!"std::collections" c!"collections" := ⟨by decide, .inr ⟨c!"std", by decide⟩⟩
  rw [rustUses]
  have key : ∀ i ∈ [Rust.import_ (.static c!"std::collections") (.static c!"HashMap"),
      Rust.import_ (.static c!"std::collections") (.static c!"HashMap"),
      (Rust.import_ (.static c!"rand::rngs") (.static c!"OsRng")).qualified], ∀ n f, Claims .direct i n f →
      (n, f) ∈ [(c!"HashMap", c!"std::collections::HashMap"), (c!"rngs", c!"rand::rngs")] := by
    intro i hi n f h
    simp only [List.mem_cons, List.not_mem_nil, or_false] at hi
    rcases hi with rfl | rfl | rfl
    · rw [h.1, h.2]; decide
    · rw [h.1, h.2]; decide
    · rw [Rust.lastSegment_unique h.1 hr, h.2]; decide
  refine ⟨?_, ?_⟩
  · intro i hi
    simp only [List.mem_cons, List.not_mem_nil, or_false] at hi
    rcases hi with rfl | rfl | rfl
    · exact ⟨by decide, by decide, fun a h => (by cases h), fun m a h => (by cases h), _, hc⟩
    · exact ⟨by decide, by decide, fun a h => (by cases h), fun m a h => (by cases h), _, hc⟩
    · exact ⟨by decide, by decide, fun a h => (by cases h), fun m a h => (by cases h), _, hr⟩
  · intro i hi j hj n f f' h h'
    have h1 := key i hi n f h
    have h2 := key j hj n f' h'
    simp only [List.mem_cons, Prod.mk.injEq, List.not_mem_nil, or_false] at h1 h2
    rcases h1 with ⟨rfl, rfl⟩ | ⟨rfl, rfl⟩ <;> rcases h2 with ⟨h, rfl⟩ | ⟨h, rfl⟩ <;>
      first | rfl | (exact absurd h (by decide))

open RustFile in
/-- The file for the text. -/
example : ∃ t, Invocation.make .nightly (host rustTable) () ⟨⟨7, 0, 90⟩, rustText⟩ = some t ∧ ∃ us : List Use,
    toFileString (Rust.lang .direct) ⟨.space 4, ['\n']⟩ (Rust.file .direct t) =
      some (fileText ⟨.space 4, ['\n']⟩ (fileLines (us.map Use.text)
        [c!"let mut m: HashMap<u8, u8> = HashMap::new();", [], c!"while m.len() < 9 {",
          c!"    m.insert(rngs::OsRng.next(), 1);", c!"}"])) ∧
    Resolves us c!"HashMap" c!"std::collections::HashMap" ∧ Resolves us c!"rngs::OsRng" c!"rand::rngs::OsRng" := by
  obtain ⟨t, h1, us, h2, h3⟩ := C80_rust .direct (host rustTable) (full _) () ⟨.space 4, ['\n']⟩ rustValues 7 0 90 rustText
    (rustWritten _) rustApart.1 rustApart.2
  refine ⟨t, h1, us, h2.trans ?_, ?_, ?_⟩
  · have : written ⟨.space 4, ['\n']⟩ rustValues 0 rustText = [c!"let mut m: HashMap<u8, u8> = HashMap::new();", [],
      c!"while m.len() < 9 {", c!"    m.insert(rngs::OsRng.next(), 1);", c!"}"] := by decide +kernel
    rw [this]
  · exact h3 (Rust.import_ (.static c!"std::collections") (.static c!"HashMap")) (by rw [rustUses]; simp)
  · exact h3 (Rust.import_ (.static c!"rand::rngs") (.static c!"OsRng")).qualified (by rw [rustUses]; simp)

/-! ### Java -/

def javaTable (n : Str) : Option Java.Import :=
  if n = c!"list" then some ⟨.static c!"java.util", .static c!"List"⟩
  else if n = c!"awt" then some ⟨.static c!"java.awt", .static c!"List"⟩
  else if n = c!"string" then some ⟨.static c!"java.lang", .static c!"String"⟩ else none

def javaText : List Str := [c!"void f($list<$string> a,", c!"    $awt b) {}"]

def javaValues (n : Str) : List Str :=
  if n = c!"list" then [c!"java.util.List"] else if n = c!"awt" then [c!"List"] else [c!"String"]

def javaClasses (p n : Str) : Prop := (p, n) ∈ [(c!"java.util", c!"List"), (c!"java.awt", c!"List"), (c!"java.lang", c!"String")]

theorem javaUses : uses (host javaTable) () (Macro.textOf javaText) = [⟨.static c!"java.util", .static c!"List"⟩,
    ⟨.static c!"java.lang", .static c!"String"⟩, ⟨.static c!"java.awt", .static c!"List"⟩] := by decide +kernel

/-- Of two classes with one name the first in order is imported, here the last in the text. -/
theorem javaWritten (cfg : Config) : Written (host javaTable) ()
    (Java.lang none (merely (uses (host javaTable) () (Macro.textOf javaText)))) cfg javaValues 0 javaText := by
  rw [javaUses]
  refine ⟨by decide +kernel, by decide +kernel, by decide +kernel, by decide +kernel, by decide +kernel, ?_⟩
  intro n hn
  have h : names (Macro.textOf javaText) = [c!"list", c!"string", c!"awt"] := by decide +kernel
  rw [h] at hn
  simp only [List.mem_cons, List.not_mem_nil, or_false] at hn
  rcases hn with rfl | rfl | rfl
  · exact known javaTable _ cfg c!"list" ⟨.static c!"java.util", .static c!"List"⟩ (by decide +kernel) (by decide +kernel)
      (by decide +kernel)
  · exact known javaTable _ cfg c!"string" ⟨.static c!"java.lang", .static c!"String"⟩ (by decide +kernel) (by decide +kernel)
      (by decide +kernel)
  · exact known javaTable _ cfg c!"awt" ⟨.static c!"java.awt", .static c!"List"⟩ (by decide +kernel) (by decide +kernel)
      (by decide +kernel)

open JavaFile in
/-- The file for the text. -/
example : ∃ t, Invocation.make .nightly (host javaTable) () ⟨⟨7, 0, 90⟩, javaText⟩ = some t ∧ ∃ ims : List (Str × Str),
    toFileString (Java.lang none t) ⟨.space 4, ['\n']⟩ (Java.file none t) =
      some (fileText ⟨.space 4, ['\n']⟩ (fileLines (paragraphs [[], ims.map (fun e => importLine e.1 e.2)])
        [c!"void f(java.util.List<String> a,", c!"    List b) {}"])) := by
  obtain ⟨t, h1, ims, h2, -⟩ := C80_java none (host javaTable) (full _) () ⟨.space 4, ['\n']⟩ javaValues 7 0 90 javaText
    javaClasses (javaWritten _) (by
      rw [javaUses]
      unfold Proper javaClasses
      decide +kernel) (by
      rw [javaUses]
      unfold JavaFile.Apart Foreign javaClasses
      exact ⟨by decide +kernel, by decide +kernel⟩)
  refine ⟨t, h1, ims, h2.trans ?_⟩
  have : written ⟨.space 4, ['\n']⟩ javaValues 0 javaText = [c!"void f(java.util.List<String> a,", c!"    List b) {}"] := by
    decide +kernel
  rw [this]
  rfl

/-! ### C# -/

def csharpTable (n : Str) : Option Csharp.Import :=
  if n = c!"list" then some ⟨.static c!"System.Collections", .static c!"List", false⟩ else none

def csharpText : List Str := [c!"class A {", c!"  $list xs;", c!"}"]

open CsharpFile in
/-- The file for the text in a namespace. -/
example : ∃ t, Invocation.make .nightly (host csharpTable) () ⟨⟨7, 0, 90⟩, csharpText⟩ = some t ∧ ∃ us : List Str,
    toFileString (Csharp.lang (some (.static c!"N")) t) ⟨.space 4, ['\n']⟩ (Csharp.file (some (.static c!"N")) t) =
      some (fileText ⟨.space 4, ['\n']⟩ (fileLines (us.map usingLine)
        [c!"namespace N {", c!"    class A {", c!"        List xs;", c!"    }", c!"}"])) := by
  have hu : uses (host csharpTable) () (Macro.textOf csharpText) =
    [⟨.static c!"System.Collections", .static c!"List", false⟩] := by decide +kernel
  obtain ⟨t, h1, us, h2, -⟩ := C80_csharp_namespace (.static c!"N") (by decide) (host csharpTable) (full _) () ⟨.space 4, ['\n']⟩
    (fun _ => [c!"List"]) 7 0 90 csharpText (fun a b => a = c!"System.Collections" ∧ b = c!"List")
    (by
      rw [hu]
      refine ⟨by decide +kernel, by decide +kernel, by decide +kernel, by decide +kernel, by decide +kernel, ?_⟩
      intro n hn
      have h : names (Macro.textOf csharpText) = [c!"list"] := by decide +kernel
      rw [h] at hn
      rw [List.mem_singleton.1 hn]
      exact known csharpTable _ _ c!"list" ⟨.static c!"System.Collections", .static c!"List", false⟩ (by decide +kernel)
        (by decide +kernel) (by decide +kernel))
    (by decide +kernel)
    (by
      rw [hu]
      unfold Proper
      decide +kernel)
    (by
      rw [hu]
      rintro ns n ⟨h, -, -⟩
      have h := List.mem_singleton.1 h
      cases h
      exact ⟨fun ns' _ h => h.1, fun u m _ h => h.1⟩)
  refine ⟨t, h1, us, h2.trans ?_⟩
  have : written ⟨.space 4, ['\n']⟩ (fun _ => [c!"List"]) 0 csharpText = [c!"class A {", c!"    List xs;", c!"}"] := by
    decide +kernel
  rw [this]
  rfl

end SourceFileSample

end Genco.Props
