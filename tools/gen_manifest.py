#!/usr/bin/env python3
"""Regenerate MANIFEST.json: collect the theorems named C<nn>_... from the property files."""
import json, re, pathlib, collections
root = pathlib.Path(__file__).resolve().parent.parent
notes = json.loads((root / "tools/notes.json").read_text())
thms = collections.defaultdict(list)
for f in sorted((root / "lean/Verif/Props").glob("*.lean")):
    ns = []
    for line in f.read_text().splitlines():
        m = re.match(r"namespace (\S+)", line)
        if m:
            ns.append(m.group(1))
        m = re.match(r"end (\S+)", line)
        if m and ns and ns[-1] == m.group(1):
            ns.pop()
        m = re.match(r"theorem (C\d\d\w*)", line)
        if m:
            thms[re.match(r"C\d+", m.group(1)).group()].append(".".join(ns + [m.group(1)]))
claims = []
for line in (root / "properties.jsonl").read_text().splitlines():
    pid = json.loads(line)["id"]
    note = notes.get(pid, {})
    if pid not in thms and not note:
        continue
    status = note.get("status") or ("partial" if any("_partial" in t or "_refuted" in t for t in thms[pid]) else "proved")
    claims.append({"property": pid, "status": status, "theorems": thms[pid], "note": note.get("note", "")})
(root / "MANIFEST.json").write_text(json.dumps({"claims": claims}, indent=1) + "\n")
print(len(claims), "claims")
