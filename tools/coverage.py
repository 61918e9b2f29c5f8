"""Write COVERAGE.md: for every function of the package the definitions of the model that cite its lines."""
import ast
import pathlib
import re

ROOT = pathlib.Path(__file__).resolve().parent.parent
REPO = pathlib.Path("/repo/starwinds_magnetogram")
CITE = re.compile(r"((?:bin/)?[a-z_]+\.py):\s?((?:\d+(?:-\d+)?)(?:(?:,| and)\s*\d+(?:-\d+)?(?![\w.]))*)")
DEF = re.compile(r"^(?:@\[[^\]]*\]\s*)?(?:noncomputable |private |protected |partial |unsafe )*"
                 r"(?:def|structure|inductive|abbrev|class|instance)\s+([\w.'₀-₉α-ωθφ]+)?")


def citations(text):
    for name, ranges in CITE.findall(re.sub(r"\s+", " ", text)):
        for part in re.split(r",| and", ranges):
            lo, _, hi = part.strip().partition("-")
            yield name, int(lo), int(hi or lo)


def definitions():
    """Triples (module, definition, list of cited ranges)."""
    for path in sorted((ROOT / "lean/Verif/Model").glob("**/*.lean")):
        module = ".".join(path.relative_to(ROOT / "lean/Verif").with_suffix("").parts)
        lines = path.read_text().split("\n")
        doc, inside = [], False
        for line in lines:
            if not inside and line.startswith("/--"):
                doc, inside = [], True
            if inside:
                doc.append(line)
                if "-/" in line:
                    inside = False
                continue
            m = DEF.match(line)
            if m:
                yield module, m.group(1) or "instance", list(citations("\n".join(doc)))
                doc = []
            elif line.strip() and not line.startswith(("@[", "set_option", "open", "variable")):
                doc = doc if line.startswith(" ") else []


def functions(path):
    def walk(node, prefix):
        for child in ast.iter_child_nodes(node):
            if isinstance(child, (ast.FunctionDef, ast.ClassDef)):
                name = prefix + child.name
                if isinstance(child, ast.FunctionDef):
                    yield name, child.lineno, child.end_lineno, child
                    yield from walk(child, name + ".")
                else:
                    yield from walk(child, name + ".")
    yield from walk(ast.parse(path.read_text()), "")


def names(cited, path):
    """Does a citation name this file? `plot_lsd.py` is the module, `bin/plot_lsd.py` the script."""
    relative = str(path.relative_to(REPO))
    return relative in (cited, "bin/" + cited) if cited != "plot_lsd.py" else relative == cited


def main():
    defs = list(definitions())
    out = ["# Functions of the package and the definitions that model them", "",
           "Written by `tools/coverage.py` from the citations in the comments of `lean/Verif/Model`.", ""]
    bare = []
    for path in sorted(REPO.glob("**/*.py")):
        rows = []
        for name, lo, hi, _ in functions(path):
            found = {}
            for module, d, cites in defs:
                for f, a, b in cites:
                    if names(f, path) and a <= hi and lo <= b and b - a <= 3 * (hi - lo + 1) + 10:
                        found.setdefault(module.removeprefix("Model."), [])
                        if d not in found[module.removeprefix("Model.")]:
                            found[module.removeprefix("Model.")].append(d)
            if not found:
                bare.append(f"{path.name}:{lo}-{hi} {name}")
            text = "; ".join(f"{m}: " + ", ".join(f"`{d}`" for d in ds) for m, ds in found.items())
            rows.append(f"| `{name}` | {lo}-{hi} | {text or 'not modelled'} |")
        if rows:
            out += [f"## {path.relative_to(REPO)}", "", "| Function | Lines | Definitions |", "|---|---|---|", *rows, ""]
    (ROOT / "COVERAGE.md").write_text("\n".join(out))
    print(len(defs), "definitions;", len([d for d in defs if not d[2]]), "without citation;", "not modelled:", bare)


main()
