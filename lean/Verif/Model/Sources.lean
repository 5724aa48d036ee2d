import Verif.Model.Lex

/-!
# The invocations of `quote!` and `quote_in!` in the languages

The lines between the delimiters, as they are in the source, with the line, the column and the
offset of the first character.
-/

set_option autoImplicit false

namespace Genco.Sources

open Macro

/-- `quote_in!`, src/lang/c.rs 85. -/
def c85 : Invocation := ⟨⟨85, 26, 2210⟩, [c!"*out => #include <$(file)>"]⟩

/-- `quote_in!`, src/lang/c.rs 87. -/
def c87 : Invocation := ⟨⟨87, 26, 2286⟩, [c!"*out => #include $(quoted(file))"]⟩

/-- `quote_in!`, src/lang/swift.rs 109. -/
def swift109 : Invocation := ⟨⟨109, 27, 3069⟩, [c! r#" *out => $['\r']import $module"#]⟩

/-- `quote_in!`, src/lang/dart/mod.rs 209. -/
def dart209 : Invocation := ⟨⟨209, 26, 6015⟩, [c!"*out => import $(quoted(name)) as $alias;"]⟩

/-- `quote_in!`, src/lang/dart/mod.rs 211. -/
def dart211 : Invocation := ⟨⟨211, 26, 6106⟩, [c!"*out => import $(quoted(name));"]⟩

/-- `quote_in!`, src/lang/go.rs 80. -/
def go80 : Invocation := ⟨⟨80, 26, 1801⟩, [c!"header => package $package"]⟩

/-- `quote_in!`, src/lang/go.rs 148. -/
def go148 : Invocation := ⟨⟨148, 22, 3433⟩, [c!"*out => import $(quoted(module))"]⟩

/-- `quote_in!`, src/lang/java/mod.rs 75. -/
def java75 : Invocation := ⟨⟨75, 26, 2345⟩, [c!"header => package $package;"]⟩

/-- `quote!`, src/lang/java/mod.rs 204. -/
def java204 : Invocation := ⟨⟨204, 30, 5707⟩, [c!"import $(package.clone())$(SEP)$(name.clone());"]⟩

/-- `quote_in!`, src/lang/csharp/mod.rs 63-67. -/
def csharp63 : Invocation := ⟨⟨63, 27, 1702⟩, [
    c!" file =>",
    c!"                    namespace $namespace {",
    c!"                        $tokens",
    c!"                    }",
    c!"                "]⟩

/-- `quote_in!`, src/lang/csharp/mod.rs 204. -/
def csharp204 : Invocation := ⟨⟨204, 26, 5517⟩, [c!"*out => using $namespace;"]⟩

/-- `quote_in!`, src/lang/nix.rs 166. -/
def nix166 : Invocation := ⟨⟨166, 22, 4521⟩, [c!"*out => $argument,"]⟩

/-- `quote_in!`, src/lang/nix.rs 194. -/
def nix194 : Invocation := ⟨⟨194, 22, 5094⟩, [c!"*out => with $name;"]⟩

/-- `quote_in!`, src/lang/nix.rs 232. -/
def nix232 : Invocation := ⟨⟨232, 22, 6234⟩, [c!"*out => inherit ($path) $name;"]⟩

/-- `quote_in!`, src/lang/nix.rs 237. -/
def nix237 : Invocation := ⟨⟨237, 22, 6365⟩, [c!"*out => $name = $value;"]⟩

/-- `quote!`, src/lang/python.rs 327. -/
def python327 : Invocation := ⟨⟨327, 44, 8345⟩, [c!"$name$(if let Some(a) = alias => $[' ']as $a)"]⟩

/-- `quote_in!`, src/lang/python.rs 331-333. -/
def python331 : Invocation := ⟨⟨331, 27, 8495⟩, [
    c!"*out =>",
    c!"                    from $module import $(imports.into_iter().next())",
    c!"                "]⟩

/-- `quote_in!`, src/lang/python.rs 335-337. -/
def python335 : Invocation := ⟨⟨335, 27, 8639⟩, [
    c!"*out =>",
    c!"                    from $module import $(for i in imports join (, ) => $i)",
    c!"                "]⟩

/-- `quote_in!`, src/lang/python.rs 344-346. -/
def python344 : Invocation := ⟨⟨344, 23, 8855⟩, [
    c!"*out =>",
    c!"                import $module$(if let Some(a) = alias => $[' ']as $a)",
    c!"            "]⟩

/-- `quote_in!`, src/lang/js.rs 449-451. -/
def js449 : Invocation := ⟨⟨449, 23, 12176⟩, [
    c!" *out =>",
    c!"                import * as $name from $(ref t => render_from(t, config.module_path.as_deref(), module));",
    c!"            "]⟩

/-- `quote_in!`, src/lang/js.rs 456-491. -/
def js456 : Invocation := ⟨⟨456, 23, 12403⟩, [
    c!" *out =>",
    c!"                import $(ref tokens => {",
    c!"                    if let Some(default) = module.default_import {",
    c!"                        tokens.append(ItemStr::from(default));",
    c!"",
    c!"                        if !module.set.is_empty() {",
    c! r#"                            tokens.append(",");"#,
    c!"                            tokens.space();",
    c!"                        }",
    c!"                    }",
    c!"",
    c!"                    if !module.set.is_empty() {",
    c! r#"                        tokens.append("{");"#,
    c!"",
    c!"                        let mut it = module.set.iter().peekable();",
    c!"",
    c!"                        while let Some(el) = it.next() {",
    c!"                            match *el {",
    c!"                                ImportedElement::Plain(name) => {",
    c!"                                    tokens.append(name);",
    c!"                                },",
    c!"                                ImportedElement::Aliased(name, alias) => {",
    c!"                                    quote_in!(*tokens => $name as $alias);",
    c!"                                }",
    c!"                            }",
    c!"",
    c!"                            if it.peek().is_some() {",
    c! r#"                                tokens.append(",");"#,
    c!"                                tokens.space();",
    c!"                            }",
    c!"                        }",
    c!"",
    c! r#"                        tokens.append("}");"#,
    c!"                    }",
    c!"                }) from $(ref t => render_from(t, config.module_path.as_deref(), name));",
    c!"            "]⟩

/-- `quote_in!`, src/lang/js.rs 478. -/
def js478 : Invocation := ⟨⟨478, 46, 13314⟩, [c!"*tokens => $name as $alias"]⟩

/-- `quote_in!`, src/lang/js.rs 509-515. -/
def js509 : Invocation := ⟨⟨509, 23, 14293⟩, [
    c!" *t =>",
    c!"                $(match (module_path, module) {",
    c!"                    (_, Module::Global(from)) => $(quoted(from)),",
    c!"                    (None, Module::Path(path)) => $(quoted(path.as_str())),",
    c!"                    (Some(module_path), Module::Path(path)) => $(quoted(module_path.relative(path).as_str())),",
    c!"                })",
    c!"            "]⟩

/-- `quote_in!`, src/lang/rust.rs 474-483. -/
def rust474 : Invocation := ⟨⟨474, 31, 13114⟩, [
    c!" *out =>",
    c!"                        use $m::{$(ref o =>",
    c!"                            first.render(o);",
    c!"                            quote_in!(*o => , $(ref o => second.render(o)));",
    c!"",
    c!"                            for item in render {",
    c!"                                quote_in!(*o => , $(ref o => item.render(o)));",
    c!"                            }",
    c!"                        )};",
    c!"                    "]⟩

/-- `quote_in!`, src/lang/rust.rs 477. -/
def rust477 : Invocation := ⟨⟨477, 38, 13250⟩, [c!"*o => , $(ref o => second.render(o))"]⟩

/-- `quote_in!`, src/lang/rust.rs 480. -/
def rust480 : Invocation := ⟨⟨480, 42, 13381⟩, [c!"*o => , $(ref o => item.render(o))"]⟩

/-- `quote_in!`, src/lang/rust.rs 487. -/
def rust487 : Invocation := ⟨⟨487, 38, 13648⟩, [c!"*out => use $m;"]⟩

/-- `quote_in!`, src/lang/rust.rs 490. -/
def rust490 : Invocation := ⟨⟨490, 38, 13791⟩, [c!"*out => use $m as $alias;"]⟩

/-- `quote_in!`, src/lang/rust.rs 496. -/
def rust496 : Invocation := ⟨⟨496, 38, 14039⟩, [c!"*out => use $m::$name as $alias;"]⟩

/-- `quote_in!`, src/lang/rust.rs 499. -/
def rust499 : Invocation := ⟨⟨499, 38, 14206⟩, [c!"*out => use $m::$name;"]⟩

/-- `quote_in!`, src/lang/rust.rs 580. -/
def rust580 : Invocation := ⟨⟨580, 34, 16655⟩, [c!"*out => self"]⟩

/-- `quote_in!`, src/lang/rust.rs 583. -/
def rust583 : Invocation := ⟨⟨583, 34, 16777⟩, [c!"*out => self as $alias"]⟩

/-- `quote_in!`, src/lang/rust.rs 589. -/
def rust589 : Invocation := ⟨⟨589, 34, 16992⟩, [c!"*out => $name as $alias"]⟩

/-- `quote_in!`, src/lang/rust.rs 592. -/
def rust592 : Invocation := ⟨⟨592, 34, 17132⟩, [c!"*out => $name"]⟩

end Genco.Sources
