#!/usr/bin/env python3
"""Seeded-bug testing of the proofs.

usage: mutate.py SPEC.json [name ...]

Each entry of SPEC.json is {"name", "file", "definition", "old", "new", "edit", "claim", "expect": ["C01", ...]}.
For each entry the Lean project is copied to a scratch directory, the edit applied and the project rebuilt.  Whatever
fails to prove is replaced by `sorry` (in the scratch copy only) until everything builds; then the theorems `C<nn>_...`
that depend on `sorryAx` are the ones that do not hold (or are not proved) any more.  One JSON line per entry is
appended to /verif/seeded/LOG.jsonl.
"""
import json, os, re, shutil, subprocess, sys

LOG = "/verif/seeded/LOG.jsonl"
BASE = os.environ.get("MUT_BASE", "/tmp/mut/base")  # a copy of /verif/lean, built
DST = os.environ.get("MUT_DST", "/tmp/mut/lean")
DECL = re.compile(r"^(?:@\[[^\]]*\]\s*)?(?:private |protected |noncomputable )*(theorem|lemma|def|abbrev|instance|example|structure|inductive|mutual)\b\s*(\S*)")


def sync():
    shutil.rmtree(DST, ignore_errors=True)
    os.makedirs(os.path.dirname(DST), exist_ok=True)
    subprocess.check_call(["cp", "-a", BASE, DST])


def build():
    env = dict(os.environ, LEAN_NUM_THREADS="2")
    p = subprocess.run(["nice", "lake", "build"], cwd=DST, stdout=subprocess.PIPE, stderr=subprocess.STDOUT, text=True, env=env)
    return p.returncode, p.stdout


def blocks(lines):
    starts = [i for i, l in enumerate(lines) if DECL.match(l)]
    return starts


def enclosing(lines, ln):
    best = None
    for i in blocks(lines):
        if i <= ln - 1:
            best = i
    return best


def block_end(lines, i):
    for j in range(i + 1, len(lines)):
        l = lines[j]
        if l and not l[0].isspace() and not l.startswith("|"):
            return j
    return len(lines)


def patch(rel, linenos):
    """Replace the proofs around the given lines with sorry; returns names."""
    p = os.path.join(DST, rel)
    lines = open(p).read().split("\n")
    done, names = set(), []
    starts = {enclosing(lines, n) for n in linenos}
    # theorems proved by mutual recursion fail together
    for i in list(starts):
        if DECL.match(lines[i]).group(1) in ("theorem", "lemma"):
            open_ = [k for k in range(i) if lines[k] == "mutual"]
            if open_ and "end" not in lines[open_[-1]:i]:
                stop = lines.index("end", i)
                starts |= {k for k in range(open_[-1] + 1, stop) if DECL.match(lines[k])}
    starts = sorted(starts, reverse=True)
    for i in starts:
        m = DECL.match(lines[i])
        kind, name = m.group(1), m.group(2)
        j = block_end(lines, i)
        text = "\n".join(lines[i:j])
        if kind == "example":
            names.append("example@%s:%d" % (rel, i + 1))
            lines[i:j] = ["example : True := trivial"] + [""] * (j - i - 1)
            continue
        if kind not in ("theorem", "lemma"):
            raise RuntimeError("definition %s fails: %s" % (name, rel))
        k = text.find(":= by\n")
        k2 = text.find(":=\n")
        k4 = re.search(r" where\n", text)
        cand = [x for x in (k, k2) if x >= 0]
        if k4 and all(k4.start() < x for x in cand):
            # a structure given field by field
            cand = [k4.start()]
            text = text[:k4.start()] + " := sorry_" + text[k4.start():]
            k4 = text.find(":= sorry_")
            cand = [k4]
        k3 = text.find(":= ")
        if not cand:
            cand = [k3]
        at = min(cand)
        if at < 0:
            # pattern-matching theorem
            at = text.find("\n  |")
            new = text[:at] + " := sorry"
        else:
            new = text[:at] + ":= sorry"
        if text.rstrip().endswith(":= sorry"):
            raise RuntimeError("statement of %s fails" % name)
        nl = new.split("\n")
        lines[i:j] = nl + [""] * (j - i - len(nl))
        names.append(name)
    open(p, "w").write("\n".join(lines))
    return names


def tainted():
    props = []
    for d, _, fs in os.walk(os.path.join(DST, "Verif/Props")):
        for f in sorted(fs):
            if f.endswith(".lean"):
                for l in open(os.path.join(d, f)):
                    m = re.match(r"theorem (C\d+_\S+)", l)
                    if m:
                        props.append(m.group(1))
    t = "import Verif\n" + "".join("#print axioms Verif.Props.%s\n" % p for p in props)
    open("/tmp/mut/ax.lean", "w").write(t)
    out = subprocess.run(["lake", "env", "lean", "/tmp/mut/ax.lean"], cwd=DST, stdout=subprocess.PIPE, stderr=subprocess.STDOUT, text=True).stdout
    bad = []
    for m in re.finditer(r"'Verif\.Props\.(\S+)' depends on axioms: \[([^\]]*)\]", out):
        if "sorryAx" in m.group(2):
            bad.append(m.group(1))
    return bad


def run(e):
    sync()
    edits = e.get("edits") or [{"file": e["file"], "old": e["old"], "new": e["new"]}]
    for ed in edits:
        p = os.path.join(DST, ed["file"])
        s = open(p).read()
        if s.count(ed["old"]) != 1:
            return {"name": e["name"], "error": "pattern occurs %d times" % s.count(ed["old"])}
        open(p, "w").write(s.replace(ed["old"], ed["new"]))
    failed = []
    for it in range(25):
        rc, out = build()
        if rc == 0:
            break
        errs = {}
        for m in re.finditer(r"^error: (Verif/\S+\.lean):(\d+):\d+", out, re.M):
            errs.setdefault(m.group(1), []).append(int(m.group(2)))
        if not errs:
            return {"name": e["name"], "error": out[-500:]}
        try:
            for f, ls in errs.items():
                failed += patch(f, ls)
        except RuntimeError as x:
            return {"name": e["name"], "error": str(x), "failed": failed}
    bad = tainted()
    ids = sorted({b.split("_")[0] for b in bad})
    miss = [x for x in e["expect"] if x not in ids]
    return {"name": e["name"], "failed": failed, "claims_lost": bad, "missed": miss}


def main():
    spec = json.load(open(sys.argv[1]))
    only = set(sys.argv[2:])
    done = set()
    if os.path.exists(LOG):
        done = {json.loads(l).get("name") for l in open(LOG)}
    for e in spec:
        if only and e["name"] not in only or (not only and e["name"] in done):
            continue
        r = run(e)
        print(json.dumps(r)[:1500], flush=True)
        if "error" in r and "failed" not in r:
            continue
        rec = {"name": e["name"], "definition": e["definition"], "file": e.get("file"), "edit": e["edit"], "breaks": e["claim"],
               "expected": e["expect"], "lemmas_failed": [f for f in r.get("failed", []) if not re.match(r"C\d", f)],
               "theorems_failed": r.get("claims_lost", []), "tightened": e.get("tightened", [])}
        if r.get("error"):
            rec["note"] = r["error"]
        elif r["missed"]:
            rec["note"] = "not caught by: " + ", ".join(r["missed"])
        open(LOG, "a").write(json.dumps(rec) + "\n")


main()
