import Verif.Props.Conformance

/-!
# The examples in the documentation of the languages, run on the model

As `Props/Conformance.lean`, for the documentation of `src/lang`, `src/tokens` and `src/fmt`. The
imports are made with the functions the examples use.
-/

set_option autoImplicit false

namespace Genco.Conformance

open Macro

variable {ι : Type}

/-- What a value writes into an empty stream. -/
def writes (v : Value ι) : List (Call ι) := [.stream (v.formatInto .new).items]

def fileLines (t : Facts ι) (i : Invocation) (L : Tokens ι → Lang ι) (file : Tokens ι → List (List (Item ι))) : Option (List Str) := do
  let k ← i.make .nightly t.host []
  toFileVec (L k) cfg (file k)

def cFile (t : Facts C.Import) (i : Invocation) := fileLines t i (fun _ => C.lang) C.file

def csharpFile (t : Facts Csharp.Import) (i : Invocation) := fileLines t i (Csharp.lang none) (Csharp.file none)

def dartFile (t : Facts Dart.Import) (i : Invocation) := fileLines t i (fun _ => Dart.lang) Dart.file

def goFile (t : Facts Go.Import) (i : Invocation) := fileLines t i (fun _ => Go.lang) (Go.file none)

def javaFile (p : Option ItemStr) (t : Facts Java.Import) (i : Invocation) := fileLines t i (Java.lang p) (Java.file p)

def pythonFile (t : Facts Python.Import) (i : Invocation) := fileLines t i (fun _ => Python.lang) Python.file

def swiftFile (t : Facts Swift.Import) (i : Invocation) := fileLines t i (fun _ => Swift.lang) Swift.file

def jsFile (rel : List Js.Component → Str) (t : Facts Js.Import) (i : Invocation) := fileLines t i (fun _ => Js.lang) (Js.file rel)

def rustFile (t : Facts Rust.Import) (i : Invocation) := fileOf t i

def nixFile (t : Facts Nix.Import) (i : Invocation) := fileLines t i (fun _ => Nix.lang) (Nix.file false)

def linesOf (cs : List (Call Rust.Import)) : Option (List Str) :=
  toFileVec (Rust.lang .direct) cfg (Rust.file .direct (history cs))

/-- `quote!`, src/lang/c.rs 105-107. -/
def c105 : Invocation := ⟨⟨105, 28, 0⟩, [
    c!"",
    c!"    $fizzbuzz",
    c!""]⟩

/-- src/lang/c.rs 98-118. -/
example : cFile (facts [(c!"fizzbuzz", [.appendLang (C.include_ (.box c!"foo/bar.h") (.box c!"fizzbuzz"))])]) c105 = some [c! r#"#include "foo/bar.h""#, c!"", c!"fizzbuzz"] := by decide +kernel

/-- `quote!`, src/lang/c.rs 140-142. -/
def c140 : Invocation := ⟨⟨140, 26, 0⟩, [
    c!"",
    c!"    $printf",
    c!""]⟩

/-- src/lang/c.rs 133-153. -/
example : cFile (facts [(c!"printf", [.appendLang (C.includeSystem (.box c!"stdio.h") (.box c!"printf"))])]) c140 = some [c!"#include <stdio.h>", c!"", c!"printf"] := by decide +kernel

/-- `quote!`, src/lang/csharp/mod.rs 227-231. -/
def csharp227 : Invocation := ⟨⟨227, 35, 0⟩, [
    c!"",
    c!"    $a",
    c!"    $b",
    c!"    $ob",
    c!""]⟩

/-- src/lang/csharp/mod.rs 218-244. -/
example : csharpFile (facts [(c!"a", [.appendLang (Csharp.import_ (.box c!"Foo.Bar") (.box c!"A"))]), (c!"b", [.appendLang (Csharp.import_ (.box c!"Foo.Bar") (.box c!"B"))]), (c!"ob", [.appendLang (Csharp.import_ (.box c!"Foo.Baz") (.box c!"B"))])]) csharp227 = some [c!"using Foo.Bar;", c!"", c!"A", c!"B", c!"Foo.Baz.B"] := by decide +kernel

/-- `quote!`, src/lang/csharp/mod.rs 265-269. -/
def csharp265 : Invocation := ⟨⟨265, 19, 0⟩, [
    c!"",
    c! r#"    $(csharp::block_comment(vec!["Foo"]))"#,
    c!"    $(csharp::block_comment(iter::empty::<&str>()))",
    c! r#"    $(csharp::block_comment(vec!["Bar"]))"#,
    c!""]⟩

/-- src/lang/csharp/mod.rs 259-279. -/
example : csharpFile (facts [(c! r#"csharp::block_comment(vec!["Foo"])"#, writes (.csharpBlockComment [.box c!"Foo"])),
      (c! r#"csharp::block_comment(vec!["Bar"])"#, writes (.csharpBlockComment [.box c!"Bar"]))]) csharp265 =
    some [c!"/// Foo", c!"/// Bar"] := by decide +kernel

/-- `quote!`, src/lang/csharp/mod.rs 295-298. -/
def csharp295 : Invocation := ⟨⟨295, 19, 0⟩, [
    c!"",
    c! r#"    $(csharp::comment(&["Foo"]))"#,
    c! r#"    $(csharp::comment(&["Bar"]))"#,
    c!""]⟩

/-- src/lang/csharp/mod.rs 290-308. -/
example : csharpFile (facts [(c! r#"csharp::comment(&["Foo"])"#, writes (.csharpComment [.box c!"Foo"])),
      (c! r#"csharp::comment(&["Bar"])"#, writes (.csharpComment [.box c!"Bar"]))]) csharp295 =
    some [c!"// Foo", c!"// Bar"] := by decide +kernel

/-- `quote!`, src/lang/dart/mod.rs 27. -/
def dart27 : Invocation := ⟨⟨27, 32, 0⟩, [c!"$[str](  Hello: $var  )"]⟩

/-- `quote!`, src/lang/dart/mod.rs 30. -/
def dart30 : Invocation := ⟨⟨30, 32, 0⟩, [c!"$[str](  Hello: $(a + b)  )"]⟩

/-- src/lang/dart/mod.rs 18-34. -/
example : dartText {} dart27 = some c! r#""  Hello: $var  ""# ∧ dartText {} dart30 = some c! r#""  Hello: ${a + b}  ""# := by decide +kernel

/-- `quote!`, src/lang/dart/mod.rs 233-238. -/
def dart233 : Invocation := ⟨⟨233, 19, 0⟩, [
    c!"",
    c!"    $a",
    c!"    $b",
    c!"    $c",
    c!"    $d",
    c!""]⟩

/-- src/lang/dart/mod.rs 223-253. -/
example : dartFile (facts [(c!"a", [.appendLang (Dart.import_ (.box c!"package:http/http.dart") (.box c!"A"))]), (c!"b", [.appendLang (Dart.import_ (.box c!"package:http/http.dart") (.box c!"B"))]), (c!"c", [.appendLang ((Dart.import_ (.box c!"package:http/http.dart") (.box c!"C")).withAlias (.box c!"h2"))]), (c!"d", [.appendLang (Dart.import_ (.box c!"../http.dart") (.box c!"D"))])]) dart233 = some [c! r#"import "../http.dart";"#, c! r#"import "package:http/http.dart";"#, c! r#"import "package:http/http.dart" as h2;"#, c!"", c!"A", c!"B", c!"h2.C", c!"D"] := by decide +kernel

/-- `quote!`, src/lang/dart/mod.rs 274-278. -/
def dart274 : Invocation := ⟨⟨274, 19, 0⟩, [
    c!"",
    c! r#"    $(dart::doc_comment(vec!["Foo"]))"#,
    c!"    $(dart::doc_comment(iter::empty::<&str>()))",
    c! r#"    $(dart::doc_comment(vec!["Bar"]))"#,
    c!""]⟩

/-- src/lang/dart/mod.rs 268-288. -/
example : dartFile (facts [(c! r#"dart::doc_comment(vec!["Foo"])"#, writes (.dartDocComment [.box c!"Foo"])),
      (c! r#"dart::doc_comment(vec!["Bar"])"#, writes (.dartDocComment [.box c!"Bar"]))]) dart274 =
    some [c!"/// Foo", c!"/// Bar"] := by decide +kernel

/-- `quote!`, src/lang/go.rs 165-167. -/
def go165 : Invocation := ⟨⟨165, 19, 0⟩, [
    c!"",
    c!"    $ty",
    c!""]⟩

/-- src/lang/go.rs 158-178. -/
example : goFile (facts [(c!"ty", [.appendLang (Go.import_ (.box c!"foo/bar") (.box c!"Debug"))])]) go165 = some [c! r#"import "foo/bar""#, c!"", c!"bar.Debug"] := by decide +kernel

/-- `quote!`, src/lang/java/mod.rs 132. -/
def java132 : Invocation := ⟨⟨132, 18, 0⟩, [c!"$optional"]⟩

/-- src/lang/java/mod.rs 124-150. -/
example : javaFile (some (.box c!"java.util")) (facts [(c!"optional", [.appendLang (Java.import_ (.box c!"java.util") (.box c!"Optional"))])]) java132 = some [c!"package java.util;", c!"", c!"Optional"] := by decide +kernel

/-- `quote!`, src/lang/java/mod.rs 224-227. -/
def java224 : Invocation := ⟨⟨224, 19, 0⟩, [
    c!"",
    c!"    $integer",
    c!"    $a",
    c!""]⟩

/-- src/lang/java/mod.rs 216-239. -/
example : javaFile none (facts [(c!"integer", [.appendLang (Java.import_ (.box c!"java.lang") (.box c!"Integer"))]), (c!"a", [.appendLang (Java.import_ (.box c!"java.io") (.box c!"A"))])]) java224 = some [c!"import java.io.A;", c!"", c!"Integer", c!"A"] := by decide +kernel

/-- `quote!`, src/lang/java/mod.rs 259-263. -/
def java259 : Invocation := ⟨⟨259, 19, 0⟩, [
    c!"",
    c! r#"    $(java::block_comment(vec!["first line", "second line"]))"#,
    c!"    $(java::block_comment(iter::empty::<&str>()))",
    c! r#"    $(java::block_comment(vec!["third line"]))"#,
    c!""]⟩

/-- src/lang/java/mod.rs 253-278. -/
example : javaFile none (facts [(c! r#"java::block_comment(vec!["first line", "second line"])"#,
      writes (.javaBlockComment [.box c!"first line", .box c!"second line"])),
      (c! r#"java::block_comment(vec!["third line"])"#, writes (.javaBlockComment [.box c!"third line"]))]) java259 =
    some [c!"/**", c!" * first line", c!" * second line", c!" */", c!"/**", c!" * third line", c!" */"] := by decide +kernel

/-- `quote!`, src/lang/python.rs 159-161. -/
def python159 : Invocation := ⟨⟨159, 19, 0⟩, [
    c!"",
    c! r#"    $(python::import("collections", "namedtuple").with_alias("nt"))"#,
    c!""]⟩

/-- src/lang/python.rs 154-172. -/
example : pythonFile (facts [(c! r#"python::import("collections", "namedtuple").with_alias("nt")"#, [.appendLang ((Python.import_ (.box c!"collections") (.box c!"namedtuple")).withAlias (.box c!"nt"))])]) python159 =
    some [c!"from collections import namedtuple as nt", c!"", c!"nt"] := by decide +kernel

/-- `quote!`, src/lang/python.rs 190-192. -/
def python190 : Invocation := ⟨⟨190, 19, 0⟩, [
    c!"",
    c! r#"    $(python::import("collections", "namedtuple").qualified())"#,
    c!""]⟩

/-- src/lang/python.rs 185-203. -/
example : pythonFile (facts [(c! r#"python::import("collections", "namedtuple").qualified()"#, [.appendLang ((Python.import_ (.box c!"collections") (.box c!"namedtuple")).qualified)])]) python190 =
    some [c!"import collections", c!"", c!"collections.namedtuple"] := by decide +kernel

/-- `quote!`, src/lang/python.rs 220-222. -/
def python220 : Invocation := ⟨⟨220, 19, 0⟩, [
    c!"",
    c! r#"    $(python::import("collections", "namedtuple").with_module_alias("c"))"#,
    c!""]⟩

/-- src/lang/python.rs 215-233. -/
example : pythonFile (facts [(c! r#"python::import("collections", "namedtuple").with_module_alias("c")"#, [.appendLang ((Python.import_ (.box c!"collections") (.box c!"namedtuple")).withModuleAlias (.box c!"c"))])]) python220 =
    some [c!"import collections as c", c!"", c!"c.namedtuple"] := by decide +kernel

/-- `quote!`, src/lang/python.rs 360-365. -/
def python360 : Invocation := ⟨⟨360, 19, 0⟩, [
    c!"",
    c! r#"    $(python::import("collections", "namedtuple").with_alias("nt"))"#,
    c! r#"    $(python::import("collections", "namedtuple"))"#,
    c! r#"    $(python::import("collections", "namedtuple").qualified())"#,
    c! r#"    $(python::import("collections", "namedtuple").with_module_alias("c"))"#,
    c!""]⟩

/-- src/lang/python.rs 355-381. -/
example : pythonFile (facts [(c! r#"python::import("collections", "namedtuple").with_alias("nt")"#, [.appendLang ((Python.import_ (.box c!"collections") (.box c!"namedtuple")).withAlias (.box c!"nt"))]), (c! r#"python::import("collections", "namedtuple")"#, [.appendLang (Python.import_ (.box c!"collections") (.box c!"namedtuple"))]), (c! r#"python::import("collections", "namedtuple").qualified()"#, [.appendLang ((Python.import_ (.box c!"collections") (.box c!"namedtuple")).qualified)]), (c! r#"python::import("collections", "namedtuple").with_module_alias("c")"#, [.appendLang ((Python.import_ (.box c!"collections") (.box c!"namedtuple")).withModuleAlias (.box c!"c"))])]) python360 =
    some [c!"from collections import namedtuple, namedtuple as nt", c!"import collections", c!"import collections as c", c!"", c!"nt", c!"namedtuple", c!"collections.namedtuple", c!"c.namedtuple"] := by decide +kernel

/-- `quote!`, src/lang/python.rs 265-267. -/
def python265 : Invocation := ⟨⟨265, 19, 0⟩, [
    c!"",
    c! r#"    $(python::import_module("collections").with_alias("c"))"#,
    c!""]⟩

/-- src/lang/python.rs 260-278. -/
example : pythonFile (facts [(c! r#"python::import_module("collections").with_alias("c")"#, [.appendLang ((Python.importModule (.box c!"collections")).withAlias (.box c!"c"))])]) python265 = some [c!"import collections as c", c!"", c!"c"] := by decide +kernel

/-- `quote!`, src/lang/python.rs 403-406. -/
def python403 : Invocation := ⟨⟨403, 19, 0⟩, [
    c!"",
    c! r#"    $(python::import_module("collections"))"#,
    c! r#"    $(python::import_module("collections").with_alias("c"))"#,
    c!""]⟩

/-- src/lang/python.rs 398-419. -/
example : pythonFile (facts [(c! r#"python::import_module("collections")"#, [.appendLang (Python.importModule (.box c!"collections"))]), (c! r#"python::import_module("collections").with_alias("c")"#, [.appendLang ((Python.importModule (.box c!"collections")).withAlias (.box c!"c"))])]) python403 =
    some [c!"import collections", c!"import collections as c", c!"", c!"collections", c!"c"] := by decide +kernel

/-- `quote!`, src/lang/swift.rs 124. -/
def swift124 : Invocation := ⟨⟨124, 18, 0⟩, [c! r#"$(swift::import("Foo", "Debug"))"#]⟩

/-- src/lang/swift.rs 119-135. -/
example : swiftFile (facts [(c! r#"swift::import("Foo", "Debug")"#, [.appendLang (Swift.import_ (.box c!"Foo") (.box c!"Debug"))])]) swift124 = some [c!"import Foo", c!"", c!"Debug"] := by decide +kernel

/-- `quote!`, src/lang/js.rs 11-17. -/
def js11 : Invocation := ⟨⟨11, 31, 0⟩, [
    c!"",
    c!"    function foo(v) {",
    c! r#"        return v + ", World";"#,
    c!"    }",
    c!"",
    c! r#"    foo("Hello");"#,
    c!""]⟩

/-- src/lang/js.rs 5-31; also src/lang/go.rs 5-31. -/
example : jsFile (fun _ => []) {} js11 = some [c!"function foo(v) {", c! r#"    return v + ", World";"#, c!"}", c!"", c! r#"foo("Hello");"#] := by decide +kernel

/-- `quote!`, src/lang/js.rs 214-218. -/
def js214 : Invocation := ⟨⟨214, 31, 0⟩, [
    c!"",
    c!"    $foo1",
    c!"    $foo2",
    c!"    $react",
    c!""]⟩

/-- src/lang/js.rs 204-239. The relative path is given. -/
example : jsFile (fun _ => c!"../bar.js") (facts [(c!"foo1", [.appendLang (Js.import_ (.path [.normal c!"foo", .normal c!"bar.js"]) (.box c!"Foo1"))]), (c!"foo2", [.appendLang (Js.import_ (.path [.normal c!"foo", .normal c!"bar.js"]) (.box c!"Foo2"))]), (c!"react", [.appendLang ((Js.import_ (.global (.box c!"react")) (.box c!"React")).intoDefault)])]) js214 = some [c! r#"import {Foo1, Foo2} from "../bar.js";"#, c! r#"import React from "react";"#, c!"", c!"Foo1", c!"Foo2", c!"React"] := by decide +kernel

/-- `quote!`, src/lang/js.rs 298-301. -/
def js298 : Invocation := ⟨⟨298, 19, 0⟩, [
    c!"",
    c!"    $a",
    c!"    $b",
    c!""]⟩

/-- src/lang/js.rs 290-313. -/
example : jsFile (fun _ => []) (facts [(c!"a", [.appendLang (Js.import_ (.global (.box c!"collections")) (.box c!"vec"))]), (c!"b", [.appendLang ((Js.import_ (.global (.box c!"collections")) (.box c!"vec")).withAlias (.box c!"list"))])]) js298 = some [c! r#"import {vec, vec as list} from "collections";"#, c!"", c!"vec", c!"list"] := by decide +kernel

/-- `quote!`, src/lang/js.rs 334. -/
def js334 : Invocation := ⟨⟨334, 18, 0⟩, [c!"$default_vec"]⟩

/-- src/lang/js.rs 327-345. -/
example : jsFile (fun _ => []) (facts [(c!"default_vec", [.appendLang ((Js.import_ (.global (.box c!"collections")) (.box c!"defaultVec")).intoDefault)])]) js334 = some [c! r#"import defaultVec from "collections";"#, c!"", c!"defaultVec"] := by decide +kernel

/-- `quote!`, src/lang/js.rs 363. -/
def js363 : Invocation := ⟨⟨363, 18, 0⟩, [c!"$all"]⟩

/-- src/lang/js.rs 356-374. -/
example : jsFile (fun _ => []) (facts [(c!"all", [.appendLang ((Js.import_ (.global (.box c!"collections")) (.box c!"all")).intoWildcard)])]) js363 = some [c! r#"import * as all from "collections";"#, c!"", c!"all"] := by decide +kernel

/-- `quote!`, src/lang/js.rs 532-537. -/
def js532 : Invocation := ⟨⟨532, 19, 0⟩, [
    c!"",
    c!"    $default_vec",
    c!"    $all",
    c!"    $vec",
    c!"    $vec_as_list",
    c!""]⟩

/-- src/lang/js.rs 522-552. -/
example : jsFile (fun _ => []) (facts [(c!"default_vec", [.appendLang ((Js.import_ (.global (.box c!"collections")) (.box c!"defaultVec")).intoDefault)]), (c!"all", [.appendLang ((Js.import_ (.global (.box c!"collections")) (.box c!"all")).intoWildcard)]), (c!"vec", [.appendLang (Js.import_ (.global (.box c!"collections")) (.box c!"vec"))]), (c!"vec_as_list", [.appendLang ((Js.import_ (.global (.box c!"collections")) (.box c!"vec")).withAlias (.box c!"list"))])]) js532 = some [c! r#"import * as all from "collections";"#, c! r#"import defaultVec, {vec, vec as list} from "collections";"#, c!"", c!"defaultVec", c!"all", c!"vec", c!"list"] := by decide +kernel

/-- `quote!`, src/lang/rust.rs 9-13. -/
def rust9 : Invocation := ⟨⟨9, 33, 0⟩, [
    c!"",
    c!"    fn foo() -> u32 {",
    c!"        42",
    c!"    }",
    c!""]⟩

/-- src/lang/rust.rs 5-25. -/
example : rustFile {} rust9 = some [c!"fn foo() -> u32 {", c!"    42", c!"}"] := by decide +kernel

/-- `quote!`, src/lang/rust.rs 273. -/
def rust273 : Invocation := ⟨⟨273, 18, 0⟩, [c!"$ty"]⟩

/-- src/lang/rust.rs 266-284. -/
example : rustFile (facts [(c!"ty", [.appendLang ((Rust.import_ (.box c!"std::fmt") (.box c!"Debug")).withAlias (.box c!"FmtDebug"))])]) rust273 = some [c!"use std::fmt::Debug as FmtDebug;", c!"", c!"FmtDebug"] := by decide +kernel

/-- `quote!`, src/lang/rust.rs 304. -/
def rust304 : Invocation := ⟨⟨304, 18, 0⟩, [c!"$ty"]⟩

/-- src/lang/rust.rs 297-315. -/
example : rustFile (facts [(c!"ty", [.appendLang ((Rust.import_ (.box c!"std::fmt") (.box c!"Debug")).withModuleAlias (.box c!"other"))])]) rust304 = some [c!"use std::fmt as other;", c!"", c!"other::Debug"] := by decide +kernel

/-- `quote!`, src/lang/rust.rs 341. -/
def rust341 : Invocation := ⟨⟨341, 18, 0⟩, [c!"$ty"]⟩

/-- src/lang/rust.rs 334-352. -/
example : rustFile (facts [(c!"ty", [.appendLang ((Rust.import_ (.box c!"std::fmt") (.box c!"Debug")).qualified)])]) rust341 = some [c!"use std::fmt;", c!"", c!"fmt::Debug"] := by decide +kernel

/-- `quote!`, src/lang/rust.rs 371. -/
def rust371 : Invocation := ⟨⟨371, 18, 0⟩, [c!"$ty"]⟩

/-- src/lang/rust.rs 364-382. -/
example : rustFile (facts [(c!"ty", [.appendLang ((Rust.import_ (.box c!"std::fmt") (.box c!"Debug")).direct)])]) rust371 = some [c!"use std::fmt::Debug;", c!"", c!"Debug"] := by decide +kernel

/-- `quote!`, src/lang/rust.rs 612-617. -/
def rust612 : Invocation := ⟨⟨612, 18, 0⟩, [
    c!"",
    c!"    $a",
    c!"    $b",
    c!"    $c",
    c!"    $d",
    c!""]⟩

/-- src/lang/rust.rs 602-631. -/
example : rustFile (facts [(c!"a", [.appendLang ((Rust.import_ (.box c!"std::fmt") (.box c!"Debug")).qualified)]), (c!"b", [.appendLang ((Rust.import_ (.box c!"std::fmt") (.box c!"Debug")).withModuleAlias (.box c!"fmt2"))]), (c!"c", [.appendLang (Rust.import_ (.box c!"std::fmt") (.box c!"Debug"))]), (c!"d", [.appendLang ((Rust.import_ (.box c!"std::fmt") (.box c!"Debug")).withAlias (.box c!"FmtDebug"))])]) rust612 = some [c!"use std::fmt::{self, self as fmt2, Debug, Debug as FmtDebug};", c!"", c!"fmt::Debug", c!"fmt2::Debug", c!"Debug", c!"FmtDebug"] := by decide +kernel

/-- `quote!`, src/lang/rust.rs 640-642. -/
def rust640 : Invocation := ⟨⟨640, 18, 0⟩, [
    c!"",
    c!"    $ty",
    c!""]⟩

/-- src/lang/rust.rs 633-653. -/
example : rustFile (facts [(c!"ty", [.appendLang ((Rust.import_ (.box c!"std::fmt") (.box c!"Debug")).withAlias (.box c!"FmtDebug"))])]) rust640 = some [c!"use std::fmt::Debug as FmtDebug;", c!"", c!"FmtDebug"] := by decide +kernel

/-- `quote!`, src/lang/rust.rs 662-664. -/
def rust662 : Invocation := ⟨⟨662, 18, 0⟩, [
    c!"",
    c!"    $ty",
    c!""]⟩

/-- src/lang/rust.rs 655-675. -/
example : rustFile (facts [(c!"ty", [.appendLang ((Rust.import_ (.box c!"std::fmt") (.box c!"Debug")).withModuleAlias (.box c!"fmt2"))])]) rust662 = some [c!"use std::fmt as fmt2;", c!"", c!"fmt2::Debug"] := by decide +kernel

/-- `quote!`, src/lang/rust.rs 685-688. -/
def rust685 : Invocation := ⟨⟨685, 18, 0⟩, [
    c!"",
    c!"    $a",
    c!"    $b",
    c!""]⟩

/-- src/lang/rust.rs 677-700. -/
example : rustFile (facts [(c!"a", [.appendLang ((Rust.import_ (.box c!"std::fmt") (.box c!"Debug")).withAlias (.box c!"FmtDebug"))]), (c!"b", [.appendLang ((Rust.import_ (.box c!"std::fmt") (.box c!"Debug")).withAlias (.box c!"FmtDebug2"))])]) rust685 = some [c!"use std::fmt::{Debug as FmtDebug, Debug as FmtDebug2};", c!"", c!"FmtDebug", c!"FmtDebug2"] := by decide +kernel

/-- `quote!`, src/lang/nix.rs 254-256. -/
def nix254 : Invocation := ⟨⟨254, 19, 0⟩, [
    c!"",
    c!"    $cell",
    c!""]⟩

/-- src/lang/nix.rs 249-270. -/
example : nixFile (facts [(c!"cell", [.appendLang (Nix.argument (.box c!"cell"))])]) nix254 = some [c!"{", c!"    cell,", c!"    ...", c!"}:", c!"", c!"cell"] := by decide +kernel

/-- `quote!`, src/lang/nix.rs 283-285. -/
def nix283 : Invocation := ⟨⟨283, 19, 0⟩, [
    c!"",
    c!"    $nixpkgs",
    c!""]⟩

/-- src/lang/nix.rs 278-303. -/
example : nixFile (facts [(c!"nixpkgs", [.appendLang (Nix.inherit_ (.box c!"inputs") (.box c!"nixpkgs"))])]) nix283 = some [c!"{", c!"    inputs,", c!"    ...", c!"}:", c!"", c!"let", c!"    inherit (inputs) nixpkgs;", c!"in", c!"", c!"nixpkgs"] := by decide +kernel

/-- `quote!`, src/lang/nix.rs 320-325. -/
def nix320 : Invocation := ⟨⟨320, 41, 0⟩, [
    c!"",
    c!"    import $nixpkgs {",
    c!"        inherit ($nixpkgs) system;",
    c!"        config.allowUnfree = true;",
    c!"    }",
    c!""]⟩

/-- `quote!`, src/lang/nix.rs 327-329. -/
def nix327 : Invocation := ⟨⟨327, 19, 0⟩, [
    c!"",
    c!"    $pkgs",
    c!""]⟩

/-- src/lang/nix.rs 315-351. -/
example : nixFile (facts [(c!"pkgs", [.appendLang (Nix.variable_ (.box c!"pkgs")
      ((nix320.make .nightly (facts [(c!"nixpkgs", [.appendLang (Nix.inherit_ (.box c!"inputs") (.box c!"nixpkgs"))])]).host []).getD .new))])]) nix327 = some [c!"{", c!"    inputs,", c!"    ...", c!"}:", c!"", c!"let", c!"    inherit (inputs) nixpkgs;", c!"    pkgs = import nixpkgs {", c!"        inherit (nixpkgs) system;", c!"        config.allowUnfree = true;", c!"    };", c!"in", c!"", c!"pkgs"] := by decide +kernel

/-- `quote!`, src/lang/nix.rs 369-371. -/
def nix369 : Invocation := ⟨⟨369, 19, 0⟩, [
    c!"",
    c!"    $list_to_attrs $concat_map",
    c!""]⟩

/-- src/lang/nix.rs 363-387. -/
example : nixFile (facts [(c!"concat_map", [.appendLang (Nix.with_ (.box c!"inputs.nixpkgs.lib") (.box c!"concatMap"))]), (c!"list_to_attrs", [.appendLang (Nix.with_ (.box c!"inputs.nixpkgs.lib") (.box c!"listToAttrs"))])]) nix369 = some [c!"{", c!"    inputs,", c!"    ...", c!"}:", c!"", c!"with inputs.nixpkgs.lib;", c!"", c!"listToAttrs concatMap"] := by decide +kernel

/-- Quoting: src/lang/csharp/mod.rs 3-18, dart/mod.rs 3-16, go.rs 33-43, java/mod.rs 3-16, python.rs 5-18, swift.rs 3-16,
js.rs 33-50, rust.rs 27-40. -/
example : let say := fun (L : Lang Unit) s => Genco.toString L cfg [.openQuote false, .literal (.static s), .closeQuote]
  let x := c!"start π 😊 \n \x7f end"
  say (csharpLang (fun _ => [])) x = some c! r#""start \u03c0 \U0001f60a \n \x7f end""# ∧
  say (goLang (fun _ => [])) x = some c! r#""start \u03c0 \U0001f60a \n \x7f end""# ∧
  say (javaLang (fun _ => [])) x = some c! r#""start \u03c0 \ud83d\ude0a \n \u007f end""# ∧
  say (pythonLang (fun _ => [])) c!"hello \n world" = some c! r#""hello \n world""# ∧
  say (dartLang (fun _ => [])) c!"start π 😊 \n \x7f ÿ $ \\ end" = some c! r#""start π 😊 \n \x7f ÿ \$ \\ end""# ∧
  say (swiftLang (fun _ => [])) c!"start π 😊 \n \x7f ÿ $ end" = some c! r#""start π 😊 \n \u{7f} ÿ $ end""# ∧
  say (jsLang (fun _ => [])) c!"start π 😊 \n \x7f ÿ $ \\ end" = some c! r#""start π 😊 \n \x7f ÿ $ \\ end""# ∧
  say (rustLang (fun _ => [])) c!"start π 😊 \n \x7f ÿ $ end" = some c! r#""start π 😊 \n \x7f ÿ $ end""# := by decide +kernel

/-- `quote!`, src/tokens/tokens.rs 705-708. -/
def tokens705 : Invocation := ⟨⟨705, 35, 0⟩, [
    c!"",
    c!"    let mut m = $map::new();",
    c!"    m.insert(1u32, 2u32);",
    c!""]⟩

/-- src/tokens/tokens.rs 697-715, 735-750, 771-791 and 837-855; src/fmt/vec_writer.rs 8-42. -/
example : let t := facts [(c!"map", [.appendLang (Rust.import_ (.box c!"std::collections") (.box c!"HashMap"))])]
  (tokens705.make .nightly t.host []).bind (fun k => toFileString (Rust.lang .direct) cfg (Rust.file .direct k)) =
    some c!"use std::collections::HashMap;\n\nlet mut m = HashMap::new();\nm.insert(1u32, 2u32);\n" ∧
  text t tokens705 = some c!"let mut m = HashMap::new();\nm.insert(1u32, 2u32);" ∧
  rustFile t tokens705 =
    some [c!"use std::collections::HashMap;", c!"", c!"let mut m = HashMap::new();", c!"m.insert(1u32, 2u32);"] ∧
  (tokens705.make .nightly t.host []).bind (fun k => toVec (Rust.lang .direct) cfg k.items) =
    some [c!"let mut m = HashMap::new();", c!"m.insert(1u32, 2u32);"] := by decide +kernel

/-- `quote!`, src/tokens/tokens.rs 798-804. -/
def tokens798 : Invocation := ⟨⟨798, 37, 0⟩, [
    c!"",
    c!"    def foo():",
    c!"        pass",
    c!"",
    c!"    def bar():",
    c!"        pass",
    c!""]⟩

/-- src/tokens/tokens.rs 795-817. -/
example : pythonFile {} tokens798 = some [c!"def foo():", c!"    pass", c!"", c!"def bar():", c!"    pass"] := by decide +kernel

/-- src/tokens/tokens.rs 39-67. -/
example : (history [.space, .space] : Tokens Rust.Import).items = [.space] ∧
  (history [.space, .push, .push] : Tokens Rust.Import).items = [.push] ∧
  (history [.space, .push, .line] : Tokens Rust.Import).items = [.line] := by decide +kernel

/-- src/tokens/tokens.rs 289-308. -/
example : linesOf [.space, .append (b c!"hello"), .space, .space, .append (b c!"world"), .space] = some [c!" hello world"] := by decide +kernel

/-- src/tokens/tokens.rs 327-346. -/
example : linesOf [.push, .append (b c!"hello"), .push, .append (b c!"world"), .push] = some [c!"hello", c!"world"] := by decide +kernel

/-- src/tokens/tokens.rs 374-394. -/
example : linesOf [.line, .append (b c!"hello"), .line, .append (b c!"world"), .line] = some [c!"hello", c!"", c!"world"] := by decide +kernel

/-- src/tokens/tokens.rs 420-441. -/
example : linesOf [.indent, .append (b c!"hello"), .indent, .append (b c!"world"), .indent, .append (b c!"😀")] = some [c!"    hello", c!"        world", c!"            😀"] := by decide +kernel

/-- src/tokens/tokens.rs 464-491. -/
example : linesOf [.indent, .append (b c!"hello"), .unindent, .append (b c!"world"), .unindent, .append (b c!"😀"), .indent, .append (b c!"😁"), .indent, .append (b c!"😂")] = some [c!"    hello", c!"world", c!"😀", c!"😁", c!"    😂"] := by decide +kernel

/-- `quote!`, src/fmt/config.rs 9-13. -/
def config9 : Invocation := ⟨⟨9, 35, 0⟩, [
    c!"",
    c!"    fn foo() -> u32 {",
    c!"        42u32",
    c!"    }",
    c!""]⟩

/-- src/fmt/config.rs 5-32. -/
example : (config9.make .nightly (Facts.host (ι := Rust.Import) {}) []).bind
      (fun k => toFileVec (Rust.lang .direct) ⟨.tab, ['\n']⟩ (Rust.file .direct k)) = some [c!"fn foo() -> u32 {", c!"\t42u32", c!"}"] := by decide +kernel

/-- `quote!`, src/tokens/quoted.rs 20-23. -/
def quoted20 : Invocation := ⟨⟨20, 21, 0⟩, [
    c!"",
    c!"    let mut m = $map::<u32, &str>::new();",
    c! r#"    m.insert(0, $(quoted("hello\" world")));"#,
    c!""]⟩

/-- src/tokens/quoted.rs 15-35. -/
example : rustFile (facts [(c!"map", [.appendLang (Rust.import_ (.box c!"std::collections") (.box c!"HashMap"))]),
      (c! r#"quoted("hello\" world")"#, quo c!"hello\" world")]) quoted20 =
    some [c!"use std::collections::HashMap;", c!"", c!"let mut m = HashMap::<u32, &str>::new();", c! r#"m.insert(0, "hello\" world");"#] := by decide +kernel

/-- `quote!`, src/tokens/quoted.rs 44. -/
def quoted44 : Invocation := ⟨⟨44, 36, 0⟩, [c! r#"$[str](Hello $[const](quoted("World 😊")))"#]⟩

/-- src/tokens/quoted.rs 41-51. -/
example : (run (ι := Unit) (facts [(c! r#"quoted("World 😊")"#, quo c!"World 😊")]) quoted44).bind
      (Genco.toString (pythonLang (fun _ => [])) cfg) = some c! r#""Hello \"World \U0001f60a\"""# := by decide +kernel

/-- `quote!`, src/tokens/display.rs 41-44. -/
def display41 : Invocation := ⟨⟨41, 21, 0⟩, [
    c!"",
    c!"    let mut m = $map::<u32, &str>::new();",
    c!"    m.insert(0, $(display(&foo)));",
    c!""]⟩

/-- src/tokens/display.rs 25-56. -/
example : rustFile (facts [(c!"map", [.appendLang (Rust.import_ (.box c!"std::collections") (.box c!"HashMap"))]),
      (c!"display(&foo)", put c!"Foo")]) display41 =
    some [c!"use std::collections::HashMap;", c!"", c!"let mut m = HashMap::<u32, &str>::new();", c!"m.insert(0, Foo);"] := by decide +kernel

/-- `quote!`, src/tokens/register.rs 17-28. -/
def register17 : Invocation := ⟨⟨17, 21, 0⟩, [
    c!"",
    c!"    $(register((write_bytes_ext, read_bytes_ext)))",
    c!"",
    c!"    let mut wtr = vec![];",
    c!"    wtr.write_u16::<$big_endian>(517).unwrap();",
    c!"    wtr.write_u16::<$big_endian>(768).unwrap();",
    c!"    assert_eq!(wtr, vec![2, 5, 3, 0]);",
    c!"",
    c!"    let mut rdr = $cursor::new(vec![2, 5, 3, 0]);",
    c!"    assert_eq!(517, rdr.read_u16::<$big_endian>().unwrap());",
    c!"    assert_eq!(768, rdr.read_u16::<$big_endian>().unwrap());",
    c!""]⟩

/-- src/tokens/register.rs 9-47. -/
example : rustFile (facts [(c!"register((write_bytes_ext, read_bytes_ext))", [.register ((Rust.import_ (.box c!"byteorder") (.box c!"WriteBytesExt")).withAlias (.box c!"_")), .register ((Rust.import_ (.box c!"byteorder") (.box c!"ReadBytesExt")).withAlias (.box c!"_"))]),
      (c!"big_endian", [.appendLang (Rust.import_ (.box c!"byteorder") (.box c!"BigEndian"))]),
      (c!"cursor", [.appendLang (Rust.import_ (.box c!"std::io") (.box c!"Cursor"))])]) register17 =
    some [c!"use byteorder::{BigEndian, ReadBytesExt as _, WriteBytesExt as _};", c!"use std::io::Cursor;", c!"", c!"let mut wtr = vec![];", c!"wtr.write_u16::<BigEndian>(517).unwrap();", c!"wtr.write_u16::<BigEndian>(768).unwrap();", c!"assert_eq!(wtr, vec![2, 5, 3, 0]);", c!"", c!"let mut rdr = Cursor::new(vec![2, 5, 3, 0]);", c!"assert_eq!(517, rdr.read_u16::<BigEndian>().unwrap());", c!"assert_eq!(768, rdr.read_u16::<BigEndian>().unwrap());"] := by decide +kernel

/-- `quote!`, src/tokens/item.rs 63. -/
def item63 : Invocation := ⟨⟨63, 28, 0⟩, [c!"$foo $bar baz"]⟩

/-- src/tokens/item.rs 54-78. -/
example : made (facts [(c!"foo", [.append (s c!"foo")]), (c!"bar", [.append (b c!"bar")])]) item63 =
    some [s c!"foo", .space, b c!"bar", .space, s c!"baz"] := by decide +kernel

/-- `quote!`, src/tokens/format_into.rs 71. -/
def into71 : Invocation := ⟨⟨71, 25, 0⟩, [c!"foo bar"]⟩

/-- `quote!`, src/tokens/format_into.rs 73. -/
def into73 : Invocation := ⟨⟨73, 20, 0⟩, [c!"$a baz"]⟩

/-- `quote!`, src/tokens/format_into.rs 96. -/
def into96 : Invocation := ⟨⟨96, 16, 0⟩, [c!"foo"]⟩

/-- `quote!`, src/tokens/format_into.rs 97. -/
def into97 : Invocation := ⟨⟨97, 16, 0⟩, [c!"$[' ']bar"]⟩

/-- `quote!`, src/tokens/format_into.rs 99. -/
def into99 : Invocation := ⟨⟨99, 20, 0⟩, [c!"$vec baz"]⟩

/-- `quote!`, src/tokens/format_into.rs 158. -/
def into158 : Invocation := ⟨⟨158, 28, 0⟩, [c!"$slice baz"]⟩

/-- `quote!`, src/tokens/format_into.rs 185. -/
def into185 : Invocation := ⟨⟨185, 28, 0⟩, [c!"$foo $bar baz"]⟩

/-- `quote!`, src/tokens/format_into.rs 308. -/
def into308 : Invocation := ⟨⟨308, 28, 0⟩, [c! r#"$(format_args!("Hello {name}"))"#]⟩

/-- `quote!`, src/tokens/format_into.rs 334. -/
def into334 : Invocation := ⟨⟨334, 28, 0⟩, [c!"$foo $bar baz $biz"]⟩

/-- `quote!`, src/tokens/format_into.rs 418. -/
def into418 : Invocation := ⟨⟨418, 28, 0⟩, [c!"$foo $bar biz"]⟩

/-- src/tokens/format_into.rs 66-77, 90-103 and 150-162. -/
example : text (facts [(['a'], [.stream ((made {} into71).getD [])])]) into73 = some c!"foo bar baz" ∧
  text (facts [(c!"vec", [.stream ((made {} into96).getD []), .stream ((made {} into97).getD [])])]) into99 = some c!"foo bar baz" ∧
  text (facts [(c!"slice", put c!"foo" ++ put [' '] ++ put c!"bar")]) into158 = some c!"foo bar baz" := by decide +kernel

/-- src/tokens/format_into.rs 177-189, 302-312, 324-338 and 409-422. -/
example : let foobar := [(c!"foo", put c!"foo"), (c!"bar", put c!"bar")]
  text (facts foobar) into185 = some c!"foo bar baz" ∧
  text (facts [(c! r#"format_args!("Hello {name}")"#, put c!"Hello John")]) into308 = some c!"Hello John" ∧
  text (facts ((c!"biz", []) :: foobar)) into334 = some c!"foo bar baz" ∧
  text (facts [(c!"foo", put c!"foo" ++ put c!"bar"), (c!"bar", put c!"baz")]) into418 = some c!"foobar baz biz" := by decide +kernel

/-- `quote_in!`, src/tokens/mod.rs 24-30. -/
def mod24 : Invocation := ⟨⟨24, 23, 0⟩, [
    c!" *t =>",
    c! r#"                $(static_literal("/**"))"#,
    c! r#"                $(for line in it join ($['\r']) {"#,
    c!"                    $[' ']* $(line.into())",
    c!"                })",
    c! r#"                $[' ']$(static_literal("*/"))"#,
    c!"            "]⟩

/-- `quote!`, src/tokens/mod.rs 38-42. -/
def mod38 : Invocation := ⟨⟨38, 35, 0⟩, [
    c!"",
    c! r#"    $(block_comment(&["This class is used for awesome stuff", "ok?"]))"#,
    c!"    public static class Foo {",
    c!"    }",
    c!""]⟩

/-- src/tokens/mod.rs 6-57. -/
example : let comment := run (ι := Unit) (facts [(c! r#"static_literal("/**")"#, [.append (.literal (.static c!"/**"))]),
      (c! r#"static_literal("*/")"#, [.append (.literal (.static c!"*/"))]),
      (c!"line.into()", [.append (.literal (.box c!"This class is used for awesome stuff"))])]
    (iters := [(c!"line", c!"it", [[]])])) mod24 true
  (run (facts [(c! r#"block_comment(&["This class is used for awesome stuff", "ok?"])"#, calls comment)]) mod38).bind
      (toVec (javaLang (fun _ => [])) cfg) =
    some [c!"/**", c!" * This class is used for awesome stuff", c!" */", c!"public static class Foo {", c!"}"] := by decide +kernel

end Genco.Conformance
