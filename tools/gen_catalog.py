#!/usr/bin/env python3
"""Writes lean/Verif/Model/ErrorCatalog.lean from gEconpy/parser/error_catalog.py (read as text)."""
import ast, pathlib
src = pathlib.Path("/repo/gEconpy/parser/error_catalog.py").read_text()
cls = [n for n in ast.parse(src).body if isinstance(n, ast.ClassDef) and n.name == "ErrorCode"][0]
def q(s):
    assert '\\' not in s and '\n' not in s
    return 'chars "' + s.replace('"', '\\"') + '"'
out = ["import Verif.Model.ErrorText", "/-! # The error catalog, `gEconpy/parser/error_catalog.py`",
 "", "Written by `tools/gen_catalog.py` from the members of `ErrorCode`. -/", "", "namespace GE.Cat", "",
 "/-- `chars \"ab\"` is `['a', 'b']`, that is `\"ab\".toList` spelt out -/", 'local syntax "chars " str : term',
 "local macro_rules", "  | `(chars $s) => do", "    let cs := (s.getString.toList.map Lean.Syntax.mkCharLit).toArray", "    `([$cs,*])", "",
 "/-- `ErrorInfo` (error_catalog.py:5-25) -/", "structure Info where", "  title : Str", "  explanation : Str", "  causes : List Str", "  fixes : List Str", "  deriving DecidableEq", ""]
names = []
for n in cls.body:
    if isinstance(n, ast.Assign):
        name = n.targets[0].id; names.append(name)
        kw = {k.arg: ast.literal_eval(k.value) for k in n.value.keywords}
        assert set(kw) <= {"title", "explanation", "common_causes", "fixes"}
        out += [f"/-- `ErrorCode.{name}` (error_catalog.py:{n.lineno}-{n.end_lineno}) -/", f"def info{name} : Info where",
                f"  title := {q(kw['title'])}", f"  explanation := {q(kw['explanation'])}",
                "  causes := [" + ",\n    ".join(map(q, kw.get('common_causes', ()))) + "]",
                "  fixes := [" + ",\n    ".join(map(q, kw.get('fixes', ()))) + "]", ""]
out += ["/-- the members of `ErrorCode` in order (error_catalog.py:28-377) -/", "def catalog : List (Str × Info) := [",
        ",\n".join(f'  ("{n}".toList, info{n})' for n in names) + "]", "", "end GE.Cat", ""]
pathlib.Path("/verif/lean/Verif/Model/ErrorCatalog.lean").write_text("\n".join(out))
