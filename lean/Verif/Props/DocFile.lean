import Verif.Props.Doc

/-!
# C81: files from templates in source text
-/

set_option autoImplicit false

namespace Genco.Props

open Genco Macro Spec Spec.Text Spec.MacroFile Spec.Doc Proofs.TextFile Proofs.Rounds

variable {ι Env : Type}

/-- C81. The stream made of source text with holes. -/
theorem C81_stands (cc : Compiler) (K : Host ι Macro.Code Env) (hK : Text.Full K) (ρ : Env) (L : Lang ι) (esc : Char → Str)
    (hQ : ∀ s, L.writeQuoted s = s.map esc) (cfg : Config) (line k off : Nat) (src : List Str) (ls : List (Line ι))
    (h : Stands cc K ρ L cfg k src ls) :
    ∃ cs, Invocation.make cc K ρ ⟨⟨line, k, off⟩, src⟩ = some (history cs) ∧
      inserted cs = Doc.importsOf ls ∧ leadsWithSpace L.langItem (history cs).items = false ∧
      toVec L cfg (history cs).items = some (Doc.linesOf cfg k (seenBy cc ls)) ∧
      (lastDepth [] ((Doc.pad k (seenBy cc ls)).map shape) = 0 → framed ls = true → Template.BlockOf L cfg cs (Doc.linesOf cfg k (seenBy cc ls))) :=
  let ⟨_, h'⟩ := h.told
  C81_quote cc K hK ρ L esc hQ cfg line k off ls h.fit h' src h.source

section Go

open GoFile

/-- C81 for Go. The file made of source text is the package line, one import for every module of the
imports of the holes, sorted, and the lines of the text with the holes filled. -/
theorem C81_go (cc : Compiler) (package : Option ItemStr) (K : Host Go.Import Macro.Code Env) (hK : Full K) (ρ : Env) (cfg : Config)
    (line k off : Nat) (src : List Str) (ls : List (Line Go.Import)) (h : Stands cc K ρ Go.lang cfg k src ls) :
    ∃ t, Invocation.make cc K ρ ⟨⟨line, k, off⟩, src⟩ = some t ∧ ∃ ms : List ItemStr,
      toFileString Go.lang cfg (Go.file package t) = some (fileText cfg (fileLines (paragraphs
        [(package.map (fun p => packageLine p.text)).toList, ms.map (fun m => importLine m.text)]) (Doc.linesOf cfg k (seenBy cc ls)))) ∧
      Sorted ms ∧ ∀ m, m ∈ ms ↔ ∃ i ∈ Doc.importsOf ls, i.module = m := by
  obtain ⟨cs, h1, h2, h3, h4, -⟩ := C81_stands cc K hK ρ Go.lang _ (fun _ => rfl) cfg line k off src ls h
  obtain ⟨ms, k1, k2, k3⟩ := C44_go package cfg cs (loses_of_leads _ _ h3)
  exact ⟨_, h1, ms, file_text k1 h4, k2, by rw [← h2]; exact k3⟩

end Go

section C

open CFile

/-- C81 for C. One line for every header of the includes of the holes. -/
theorem C81_c (cc : Compiler) (K : Host C.Import Macro.Code Env) (hK : Full K) (ρ : Env) (cfg : Config)
    (line k off : Nat) (src : List Str) (ls : List (Line C.Import)) (h : Stands cc K ρ C.lang cfg k src ls) :
    ∃ t, Invocation.make cc K ρ ⟨⟨line, k, off⟩, src⟩ = some t ∧ ∃ ms : List (ItemStr × Bool),
      toFileString C.lang cfg (C.file t) = some (fileText cfg (fileLines
        (ms.map (fun m => includeLine m.1.text m.2)) (Doc.linesOf cfg k (seenBy cc ls)))) ∧
      Sorted ms ∧ ∀ m, m ∈ ms ↔ ∃ i ∈ Doc.importsOf ls, (i.path, i.system) = m := by
  obtain ⟨cs, h1, h2, h3, h4, -⟩ := C81_stands cc K hK ρ C.lang _ (fun _ => rfl) cfg line k off src ls h
  obtain ⟨ms, k1, k2, k3⟩ := C47_c cfg cs (loses_of_leads _ _ h3)
  exact ⟨_, h1, ms, file_text k1 h4, k2, by rw [← h2]; exact k3⟩

end C

section Swift

open SwiftFile

/-- C81 for Swift. -/
theorem C81_swift (cc : Compiler) (K : Host Swift.Import Macro.Code Env) (hK : Full K) (ρ : Env) (cfg : Config)
    (line k off : Nat) (src : List Str) (ls : List (Line Swift.Import)) (h : Stands cc K ρ Swift.lang cfg k src ls) :
    ∃ t, Invocation.make cc K ρ ⟨⟨line, k, off⟩, src⟩ = some t ∧ ∃ ms : List ItemStr,
      toFileString Swift.lang cfg (Swift.file t) = some (fileText cfg (fileLines
        (ms.map (fun m => importLine m.text)) (Doc.linesOf cfg k (seenBy cc ls)))) ∧
      Sorted ms ∧ ∀ m, m ∈ ms ↔ ∃ i ∈ Doc.importsOf ls, i.module = m := by
  obtain ⟨cs, h1, h2, h3, h4, -⟩ := C81_stands cc K hK ρ Swift.lang _ (fun _ => rfl) cfg line k off src ls h
  obtain ⟨ms, k1, k2, k3⟩ := C47_swift cfg cs (loses_of_leads _ _ h3)
  exact ⟨_, h1, ms, file_text k1 h4, k2, by rw [← h2]; exact k3⟩

end Swift

section Dart

open DartFile

/-- C81 for Dart. -/
theorem C81_dart (cc : Compiler) (K : Host Dart.Import Macro.Code Env) (hK : Full K) (ρ : Env) (cfg : Config)
    (line k off : Nat) (src : List Str) (ls : List (Line Dart.Import)) (h : Stands cc K ρ Dart.lang cfg k src ls) :
    ∃ t, Invocation.make cc K ρ ⟨⟨line, k, off⟩, src⟩ = some t ∧ ∃ ms : List (ItemStr × Option ItemStr),
      toFileString Dart.lang cfg (Dart.file t) = some (fileText cfg (fileLines
        (ms.map (fun m => importLine m.1.text (m.2.map ItemStr.text))) (Doc.linesOf cfg k (seenBy cc ls)))) ∧
      Sorted ms ∧ ∀ m, m ∈ ms ↔
        ∃ i ∈ Doc.importsOf ls, i.path.text ≠ coreLibrary ∧ (i.path, i.alias) = m := by
  obtain ⟨cs, h1, h2, h3, h4, -⟩ := C81_stands cc K hK ρ Dart.lang _ (fun _ => rfl) cfg line k off src ls h
  obtain ⟨ms, k1, k2, k3⟩ := C46_dart cfg cs (loses_of_leads _ _ h3)
  exact ⟨_, h1, ms, file_text k1 h4, k2, by rw [← h2]; exact k3⟩

end Dart

section Rust

open Rust RustFile

/-- C81 for Rust, given that no name is asked for in two ways (C39): the file is `use` lines under which
every reference in the text is to the item that its import asks for, and the lines of the
text with the holes filled. -/
theorem C81_rust (cc : Compiler) (c : Mode) (K : Host Rust.Import Macro.Code Env) (hK : Full K) (ρ : Env) (cfg : Config)
    (line k off : Nat) (src : List Str) (ls : List (Line Rust.Import)) (h : Stands cc K ρ (Rust.lang c) cfg k src ls)
    (hp : ∀ i ∈ Doc.importsOf ls, Proper i)
    (hc : ∀ i ∈ Doc.importsOf ls, ∀ j ∈ Doc.importsOf ls, ∀ n f f', Claims c i n f → Claims c j n f' →
      f = f') :
    ∃ t, Invocation.make cc K ρ ⟨⟨line, k, off⟩, src⟩ = some t ∧ ∃ us : List Use,
      toFileString (Rust.lang c) cfg (Rust.file c t) =
        some (fileText cfg (fileLines (us.map Use.text) (Doc.linesOf cfg k (seenBy cc ls)))) ∧
      ∀ i ∈ Doc.importsOf ls, Resolves us ((Rust.lang c).langItem i).flatten (target i) := by
  obtain ⟨cs, h1, h2, h3, h4, -⟩ := C81_stands cc K hK ρ (Rust.lang c) _ (fun _ => rfl) cfg line k off src ls h
  rw [← h2] at hp hc
  obtain ⟨us, k1, k2⟩ := C39_rust_scope c cfg cs (loses_of_leads _ _ h3) hp hc
  exact ⟨_, h1, us, file_text k1 h4, by rw [← h2]; exact k2⟩

end Rust

section Js

open JsFile

/-- C81 for JavaScript, given that different imports have different names and modules have one default
name (C41): every reference in the text is bound to what its import asks for, and no name is bound
twice. -/
theorem C81_js (cc : Compiler) (rel : List Js.Component → Str) (K : Host Js.Import Macro.Code Env) (hK : Full K) (ρ : Env) (cfg : Config)
    (line k off : Nat) (src : List Str) (ls : List (Line Js.Import)) (h : Stands cc K ρ Js.lang cfg k src ls)
    (hc : NoClash (Doc.importsOf ls)) (ho : OneDefault (Doc.importsOf ls)) :
    ∃ t, Invocation.make cc K ρ ⟨⟨line, k, off⟩, src⟩ = some t ∧ ∃ ds : List Decl,
      toFileString Js.lang cfg (Js.file rel t) =
        some (fileText cfg (fileLines (ds.map Decl.text) (Doc.linesOf cfg k (seenBy cc ls)))) ∧
      ((ds.flatMap Decl.bindings).map Prod.fst).Nodup ∧
      ∀ i ∈ Doc.importsOf ls, ((Js.lang.langItem i).flatten, target rel i) ∈ ds.flatMap Decl.bindings := by
  obtain ⟨cs, h1, h2, h3, h4, -⟩ := C81_stands cc K hK ρ Js.lang _ (fun _ => rfl) cfg line k off src ls h
  rw [← h2] at hc ho
  obtain ⟨ds, k1, k2, k3⟩ := C41_js_partial rel cfg cs (loses_of_leads _ _ h3) hc ho
  exact ⟨_, h1, ds, file_text k1 h4, k2, by rw [← h2]; exact k3⟩

end Js

section Python

open PythonFile

/-- C81 for Python, given that no name is claimed for two values (C45). -/
theorem C81_python (cc : Compiler) (K : Host Python.Import Macro.Code Env) (hK : Full K) (ρ : Env) (cfg : Config)
    (line k off : Nat) (src : List Str) (ls : List (Line Python.Import)) (h : Stands cc K ρ Python.lang cfg k src ls)
    (hp : ∀ i ∈ Doc.importsOf ls, Proper i)
    (hc : ∀ i ∈ Doc.importsOf ls, ∀ j ∈ Doc.importsOf ls, ∀ n f f', Claims i n f → Claims j n f' → f = f') :
    ∃ t, Invocation.make cc K ρ ⟨⟨line, k, off⟩, src⟩ = some t ∧ ∃ ss : List PythonFile.Stmt,
      toFileString Python.lang cfg (Python.file t) =
        some (fileText cfg (fileLines (ss.map PythonFile.Stmt.text) (Doc.linesOf cfg k (seenBy cc ls)))) ∧
      ∀ i ∈ Doc.importsOf ls, Usual i →
        Resolves ss (Python.lang.langItem i).flatten (moduleOf i) (target i) := by
  obtain ⟨cs, h1, h2, h3, h4, -⟩ := C81_stands cc K hK ρ Python.lang _ (fun _ => rfl) cfg line k off src ls h
  rw [← h2] at hp hc
  obtain ⟨ss, k1, k2⟩ := C45_python_partial cfg cs (loses_of_leads _ _ h3) hp
  exact ⟨_, h1, ss, file_text k1 h4, by rw [← h2]; exact fun i hi hu => (k2 i hi).2 ⟨hu, hc i hi⟩⟩

end Python

section Nix

open NixFile

/-- C81 for Nix, given that the values of variables are expressions (C48). -/
theorem C81_nix (cc : Compiler) (isScoped : Bool) (K : Host Nix.Import Macro.Code Env) (hK : Full K) (ρ : Env) (cfg : Config)
    (line k off : Nat) (src : List Str) (ls : List (Line Nix.Import)) (h : Stands cc K ρ Nix.lang cfg k src ls)
    (hv : Exprs cfg (Doc.importsOf ls)) :
    ∃ t, Invocation.make cc K ρ ⟨⟨line, k, off⟩, src⟩ = some t ∧ ∃ d : Decls,
      toFileString Nix.lang cfg (Nix.file isScoped t) =
        some (fileText cfg (fileLines (d.lines cfg) (Doc.linesOf cfg k (seenBy cc ls)))) ∧
      (d.args = none ↔ isScoped = true) ∧ ∀ i ∈ Doc.importsOf ls, Declared cfg d i := by
  obtain ⟨cs, h1, h2, h3, h4, -⟩ := C81_stands cc K hK ρ Nix.lang _ (fun _ => rfl) cfg line k off src ls h
  rw [← h2] at hv
  obtain ⟨d, k1, k2, k3, -⟩ := C48_nix_partial cfg isScoped cs (loses_of_leads _ _ h3) hv
  exact ⟨_, h1, d, file_text k1 h4, k2, by rw [← h2]; exact k3⟩

end Nix

section Java

open JavaFile

/-- C81 for Java, given that no class of the own package or of `java.lang` shares its name with a
foreign class (C42). How a class is written depends on all imports of the stream, and so do the lines of
the values. -/
theorem C81_java (cc : Compiler) (package : Option ItemStr) (K : Host Java.Import Macro.Code Env) (hK : Full K) (ρ : Env) (cfg : Config)
    (line k off : Nat) (src : List Str) (ls : List (Line Java.Import)) (classes : Str → Str → Prop)
    (h : Stands cc K ρ (Java.lang package (merely (Doc.importsOf ls))) cfg k src ls)
    (hp : ∀ i ∈ Doc.importsOf ls, Proper classes i)
    (ha : Apart (package.map ItemStr.text) classes ((Doc.importsOf ls).map target)) :
    ∃ t, Invocation.make cc K ρ ⟨⟨line, k, off⟩, src⟩ = some t ∧ ∃ ims : List (Str × Str),
      toFileString (Java.lang package t) cfg (Java.file package t) = some (fileText cfg (fileLines (paragraphs
        [(package.map (fun p => packageLine p.text)).toList, ims.map (fun e => importLine e.1 e.2)])
        (Doc.linesOf cfg k (seenBy cc ls)))) ∧
      ∀ i ∈ Doc.importsOf ls, Denotes ⟨package.map ItemStr.text, ims, classes⟩
        ((Java.lang package t).langItem i).flatten i.package.text i.name.text := by
  obtain ⟨cs, h1, h2, h3, h4, -⟩ := C81_stands cc K hK ρ _ _ (fun _ => rfl) cfg line k off src ls h
  have e : Java.lang package (merely (Doc.importsOf ls)) = Java.lang package (history cs) := by
    unfold Java.lang; rw [walk_merely h2]
  rw [e] at h3 h4
  rw [← h2] at hp ha
  obtain ⟨ims, k1, k2, -⟩ := C42_java_partial package cfg cs classes (loses_of_leads _ _ h3) hp
  exact ⟨_, h1, ims, file_text k1 h4, by rw [← h2]; exact k2.2 ha⟩

end Java

section Csharp

open CsharpFile

/-- C81 for C# without a namespace, given that no name that is written without its namespace is in
another namespace that is used (C43). -/
theorem C81_csharp (cc : Compiler) (K : Host Csharp.Import Macro.Code Env) (hK : Full K) (ρ : Env) (cfg : Config)
    (line k off : Nat) (src : List Str) (ls : List (Line Csharp.Import)) (types : Str → Str → Prop)
    (h : Stands cc K ρ (Csharp.lang none (merely (Doc.importsOf ls))) cfg k src ls)
    (hp : ∀ i ∈ Doc.importsOf ls, Proper types i)
    (ha : Apart none types ((Doc.importsOf ls).map target)) :
    ∃ t, Invocation.make cc K ρ ⟨⟨line, k, off⟩, src⟩ = some t ∧ ∃ us : List Str,
      toFileString (Csharp.lang none t) cfg (Csharp.file none t) =
        some (fileText cfg (fileLines (us.map usingLine) (Doc.linesOf cfg k (seenBy cc ls)))) ∧
      ∀ i ∈ Doc.importsOf ls, Denotes ⟨none, us, types⟩
        ((Csharp.lang none t).langItem i).flatten i.ns.text i.name.text := by
  obtain ⟨cs, h1, h2, h3, h4, -⟩ := C81_stands cc K hK ρ _ _ (fun _ => rfl) cfg line k off src ls h
  have e : Csharp.lang none (merely (Doc.importsOf ls)) = Csharp.lang none (history cs) := by
    unfold Csharp.lang; rw [walk_merely h2]
  rw [e] at h3 h4
  rw [← h2] at hp ha
  obtain ⟨us, k1, k2, -⟩ := C43_csharp_partial none cfg cs types (fun _ => (loses_of_leads _ _ h3)) hp ha
  exact ⟨_, h1, us, file_text k1 h4, by rw [← h2]; exact k2⟩

/-- C81 for C# with a namespace, for text whose last line is on the level of the first, and
whose first and last thing write something: the text is moved
in by one level. -/
theorem C81_csharp_namespace (cc : Compiler) (n : ItemStr) (hn : n.text ≠ []) (K : Host Csharp.Import Macro.Code Env) (hK : Full K)
    (ρ : Env) (cfg : Config) (line k off : Nat) (src : List Str) (ls : List (Line Csharp.Import)) (types : Str → Str → Prop)
    (h : Stands cc K ρ (Csharp.lang (some n) (merely (Doc.importsOf ls))) cfg k src ls)
    (hd : lastDepth [] ((Doc.pad k (seenBy cc ls)).map shape) = 0) (hr : framed ls = true)
    (hp : ∀ i ∈ Doc.importsOf ls, Proper types i)
    (ha : Apart (some n.text) types ((Doc.importsOf ls).map target)) :
    ∃ t, Invocation.make cc K ρ ⟨⟨line, k, off⟩, src⟩ = some t ∧ ∃ us : List Str,
      toFileString (Csharp.lang (some n) t) cfg (Csharp.file (some n) t) =
        some (fileText cfg (fileLines (us.map usingLine)
          (namespaceLine n.text :: ((Doc.linesOf cfg k (seenBy cc ls)).map (movedIn cfg 1) ++ ["}".toList])))) ∧
      ∀ i ∈ Doc.importsOf ls, Denotes ⟨some n.text, us, types⟩
        ((Csharp.lang (some n) t).langItem i).flatten i.ns.text i.name.text := by
  obtain ⟨cs, h1, h2, h3, -, h4⟩ := C81_stands cc K hK ρ _ _ (fun _ => rfl) cfg line k off src ls h
  have e : Csharp.lang (some n) (merely (Doc.importsOf ls)) = Csharp.lang (some n) (history cs) := by
    unfold Csharp.lang; rw [walk_merely h2]
  rw [e] at h3 h4
  rw [← h2] at hp ha
  obtain ⟨us, k1, k2, -⟩ := C43_csharp_partial (some n) cfg cs types (fun _ => (loses_of_leads _ _ h3)) hp ha
  exact ⟨_, h1, us, file_text k1 (namespace_block _ _ (fun _ => rfl) cfg n hn cs _ (h4 hd hr)), by rw [← h2]; exact k2⟩

end Csharp

/-! ## A sample -/

namespace DocFileSample

/-- `x` is the number of the round, `print` and `exit` are functions of two modules, `xs` is a list of three numbers. -/
def host : Host Go.Import Macro.Code Str where
  value ρ e :=
    if e = [c!"print"] then [.appendLang ⟨.static c!"fmt", .static c!"Println"⟩]
    else if e = [c!"exit"] then [.appendLang ⟨.static c!"os", .static c!"Exit"⟩]
    else [.append (.literal (.box (ρ ++ c!"0")))]
  scope _ _ := []
  iter _ _ e := if e = [c!"xs"] then [c!"7", c!"8", c!"9"] else []
  test ρ _ := some ρ
  pick _ _ _ _ := none
  bind ρ _ _ := ρ

theorem full : Text.Full host := by
  refine ⟨fun ρ e c hc => ?_, fun ρ e c hc => by cases hc⟩
  unfold host at hc
  simp only at hc
  split at hc
  · cases List.mem_singleton.1 hc; simp [EmptyCall]
  · split at hc <;> cases List.mem_singleton.1 hc <;> simp [EmptyCall]

def fmt : Go.Import := ⟨.static c!"fmt", .static c!"Println"⟩

def exit : Go.Import := ⟨.static c!"os", .static c!"Exit"⟩

def chars (s : Str) : Line Go.Import := s.map .char

def round (v : Str) : List (Line Go.Import) :=
  [.char ' ' :: .hole c!"$print" [c!"fmt.Println"] [fmt] :: .char '(' :: .hole c!"$x" [v ++ c!"0"] [] :: chars c!")"]

/-- The source. -/
def source : List Str := [c!"func main() {", c!"        $(for x in xs join ($['\\r']) => $print($x))", c!"        $exit(0)", c!"    }"]

/-- The source with the loop as a hole. -/
def text : List (Line Go.Import) := [
  chars c!"func main() {",
  chars c!"        " ++ [.hole c!"$(for x in xs join ($['\\r']) => $print($x))"
    [c!"fmt.Println(70)", c!"fmt.Println(80)", c!"fmt.Println(90)"] [fmt, fmt, fmt]],
  chars c!"        " ++ .hole c!"$exit" [c!"os.Exit"] [exit] :: chars c!"(0)",
  chars c!"    }"]

theorem loop_told (cfg : Config) : Told .nightly syn Go.lang cfg host.anywhere ([] : Str)
    (.hole 8 c!"$(for x in xs join ($['\\r']) => $print($x))"
      [c!"fmt.Println(70)", c!"fmt.Println(80)", c!"fmt.Println(90)"] [fmt, fmt, fmt]) := by
  refine told_joined (Env := Str) (p := c!"x") (e := c!"xs") (q := c!"$['\\r']") (b := c!" $print($x)") false
    [c!"7", c!"8", c!"9"] (fun v => [c!"fmt.Println(" ++ (v ++ c!"0)")]) (fun _ => [fmt]) (by simp)
    (by decide +kernel) (by decide +kernel) rfl .push (fun _ _ => by simp) ?_
  intro v hv
  have z : marginText cfg 0 = [] := by unfold marginText; cases cfg.indentation <;> simp
  simp only [List.mem_cons, List.not_mem_nil, or_false] at hv
  refine told_text (round v) ?_ ?_ ?_ ?_ ?_ ?_ ?_
  · rcases hv with rfl | rfl | rfl <;> decide +kernel
  · rcases hv with rfl | rfl | rfl <;> decide +kernel
  · rcases hv with rfl | rfl | rfl <;> decide +kernel
  · rfl
  · rcases hv with rfl | rfl | rfl <;>
      simp [Doc.linesOf, seenBy, Doc.pad, round, chars, bodyAt, Doc.behind, Doc.rendered, shape, Glyph.shape, blank, columnOf, depth, enclosing, Doc.left, strip, hollow, Glyph.isVoid,
        Doc.tidy, Doc.squeeze, Doc.isSpace, Doc.filled, Template.seam, movedIn, z]
  · rfl
  · intro x hx
    have : holesOf 39 (round v) = [(40, c!"$print", [c!"fmt.Println"], [fmt]), (47, c!"$x", [v ++ c!"0"], [])] := rfl
    rw [show bodyAt 8 (c!"$(for " ++ (c!"x" ++ (c!" in " ++ (c!"xs" ++ (c!" join (" ++ (c!"$['\\r']" ++ c!")")))))) false = 39 from rfl, this] at hx
    simp only [List.mem_cons, List.not_mem_nil, or_false] at hx
    rcases hx with rfl | rfl
    · exact told_name 'p' c!"rint" rfl (by decide) (by decide) (by decide +kernel) (.inl (C80_import Go.lang cfg fmt (by decide))) rfl
    · exact told_name 'x' [] rfl (by decide) (by decide) (by decide +kernel)
        (.inl (C76_text Go.lang cfg (.box (v ++ c!"0")) (by simp [ItemStr.text]))) rfl

theorem stands (cfg : Config) : Stands .nightly host [] Go.lang cfg 4 source text := by
  refine ⟨by decide +kernel, fit_of (by decide +kernel), ?_⟩
  have : holesOf 4 text = [(8, c!"$(for x in xs join ($['\\r']) => $print($x))",
      [c!"fmt.Println(70)", c!"fmt.Println(80)", c!"fmt.Println(90)"], [fmt, fmt, fmt]), (8, c!"$exit", [c!"os.Exit"], [exit])] := by
    decide +kernel
  rw [this]
  refine ⟨_, told_all ?_⟩
  intro x hx
  simp only [List.mem_cons, List.not_mem_nil, or_false] at hx
  rcases hx with rfl | rfl
  · exact loop_told cfg
  · exact told_name 'e' c!"xit" rfl (by decide) (by decide) (by decide +kernel) (.inl (C80_import Go.lang cfg exit (by decide))) rfl

/-- The file for the text. -/
example : ∃ t, Invocation.make .nightly host [] ⟨⟨7, 4, 90⟩, source⟩ = some t ∧
    toFileString Go.lang ⟨.tab, ['\n']⟩ (Go.file (some (.static c!"main")) t) = some
      c!"package main\n\nimport \"fmt\"\nimport \"os\"\n\nfunc main() {\n\tfmt.Println(70)\n\tfmt.Println(80)\n\tfmt.Println(90)\n\tos.Exit(0)\n}\n" := by
  obtain ⟨t, h1, ms, h2, h3, h4⟩ := C81_go .nightly (some (.static c!"main")) host full [] ⟨.tab, ['\n']⟩ 7 4 90 source text (stands _)
  have hu : Doc.importsOf text = [fmt, fmt, fmt, exit] := by decide +kernel
  have hm : ms = [.static c!"fmt", .static c!"os"] := by
    refine sorted_ext _ _ h3 (by unfold Sorted; decide +kernel) (fun m => ?_)
    rw [h4, hu]
    simp only [List.mem_cons, List.not_mem_nil, or_false, exists_eq_or_imp, exists_eq_left, fmt, exit]
    constructor
    · rintro (h | h | h | h) <;> simp [← h]
    · rintro (h | h) <;> simp [h]
  exact ⟨t, h1, h2.trans (by rw [hm]; decide +kernel)⟩

end DocFileSample

end Genco.Props
