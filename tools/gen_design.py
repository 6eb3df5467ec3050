#!/usr/bin/env python3
"""Regenerate DESIGN.md.  Run after `lake build` (the list of axioms is asked from Lean)."""
import json, re, pathlib, subprocess, collections, textwrap
root = pathlib.Path(__file__).resolve().parent.parent
head = (root / "tools/design_head.md").read_text()
rows = json.loads((root / "tools/design_rows.json").read_text())
claims = {c["property"]: c for c in json.loads((root / "MANIFEST.json").read_text())["claims"]}
docs, files = {}, {}
for f in sorted((root / "lean/Verif/Props").glob("*.lean")):
    s = f.read_text()
    for m in re.finditer(r"(/--((?:(?!-/).)*)-/\s*)?(?:set_option[^\n]*\n)?theorem (C\d\d\w*)", s, re.S):
        d = " ".join((m.group(2) or "").split())
        d = re.sub(r"^C\d+\s*:\s*", "", d)
        docs[m.group(3)] = d
        files[m.group(3)] = "Props/" + f.name
names = [t for c in claims.values() for t in c["theorems"]]
scratch = pathlib.Path("/tmp/axioms.lean")
scratch.write_text("import Verif\n" + "".join(f"#print axioms {n}\n" for n in names))
out = subprocess.run(["lake", "env", "lean", str(scratch)], cwd=root / "lean", capture_output=True, text=True).stdout
ax = collections.defaultdict(list)
for m in re.finditer(r"'([\w.]+)' (?:depends on axioms: \[([^\]]*)\]|does not depend on any axioms)", out):
    key = ", ".join(sorted(x.strip() for x in (m.group(2) or "").split(","))) or "no axioms"
    ax[key].append(m.group(1).split(".")[-1])
assert sum(map(len, ax.values())) == len(names), (sum(map(len, ax.values())), len(names))
o = [head, "## Properties\n"]
for line in (root / "properties.jsonl").read_text().splitlines():
    p = json.loads(line)
    i = p["id"]
    c = claims.get(i)
    o.append(f"### {i} {p['title']} ({c['status'] if c else 'planned'})\n")
    o += textwrap.wrap(p["statement"], 118) + [""]
    r = rows.get(i)
    if r:
        o += textwrap.wrap("*Modelled:* " + r[0], 118) + [""]
        o += textwrap.wrap("*Proved by:* " + r[1], 118) + [""]
    if c:
        if c["note"]:
            o += textwrap.wrap("*Result:* " + c["note"], 118) + [""]
        for t in c["theorems"]:
            n = t.split(".")[-1]
            o += textwrap.wrap(f"* `{n}` ({files[n]}): {docs[n] or 'see the file.'}", 118, subsequent_indent="  ",
                               break_long_words=False, break_on_hyphens=False)
        o.append("")
o.append("## Axioms\n")
for k in sorted(ax):
    o += textwrap.wrap(f"* {k}: " + ", ".join(sorted(ax[k])) + ".", 118, subsequent_indent="  ")
(root / "DESIGN.md").write_text("\n".join(o) + "\n")
print(len(names), "theorems", {k: len(v) for k, v in ax.items()})
