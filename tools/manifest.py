"""Regenerate MANIFEST.json from the theorem names in lean/Verif/Props and the notes in tools/notes.json.

A theorem called Cnn_... in lean/Verif/Props belongs to property Cnn. A property whose note has a "status" key uses
that status; otherwise it is "proved" if it has theorems. Properties without theorems are left out.
"""
import json, re, pathlib

root = pathlib.Path(__file__).resolve().parent.parent
notes = json.loads((root / "tools" / "notes.json").read_text())
theorems = {}
for path in sorted((root / "lean" / "Verif" / "Props").glob("*.lean")):
    for name in re.findall(r"^(?:@\[[^\]]*\] )?theorem (C\d+_[\w']+)", path.read_text(), re.M):
        theorems.setdefault(name.split("_")[0], []).append("Verif." + name)
claims = []
for line in (root / "properties.jsonl").read_text().splitlines():
    pid = json.loads(line)["id"]
    note = notes.get(pid, {})
    names = theorems.get(pid, [])
    if not names and note.get("status") != "not_applicable":
        continue
    claims.append({"property": pid, "status": note.get("status", "proved"), "theorems": names,
                   "note": note.get("note", "")})
(root / "MANIFEST.json").write_text(json.dumps({"claims": claims}, indent=1, ensure_ascii=False) + "\n")
print(len(claims), "claims,", sum(len(c["theorems"]) for c in claims), "theorems")
