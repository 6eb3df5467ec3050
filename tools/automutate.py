#!/usr/bin/env python3
"""Mechanical mutants of the model: which edits does no theorem notice?

usage: automutate.py [--per K] [--seed S] [--list] [definition ...]

For every definition of the model (or the ones given) up to K one-token edits are tried, each in a fresh scratch copy that is
built once.  An edit that does not compile in the definition itself is dropped.  If the build fails elsewhere, the names of the
theorems (and examples) that fail in this first build are noted; if it succeeds, nothing notices the edit ("survived").  One JSON line
per edit is appended to /verif/seeded/LOG.jsonl.
"""
import json, os, random, re, shutil, signal, subprocess, sys, glob

ROOT = os.environ.get("MUT_BASE", "/tmp/am/base")
DST = os.environ.get("MUT_DST", "/tmp/am/lean")
LOG = "/verif/seeded/LOG.jsonl"
SPEC = {"Wire", "Frame", "Progress", "WireLemmas", "AttrsLemmas", "BitIOLemmas", "BitsLemmas", "ClassLemmas", "NumericLemmas", "StreamLemmas", "BitViewLemmas"}
DECL = re.compile(r"^(?:@\[[^\]]*\]\s*)?(?:private |protected |noncomputable )*(theorem|lemma|def|abbrev|instance|example|structure|inductive|mutual|end|section|namespace|open|variable|/--|/-!|set_option|deriving)\s*(\S*)")
DEF = re.compile(r"^(?:private |protected |noncomputable )*(?:def|abbrev)\s+(\S+)")

RULES = [(r" < ", " ≤ "), (r" ≤ ", " < "), (r" > ", " ≥ "), (r" ≥ ", " > "), (r" \+ 1\b", " + 2"), (r" \+ (?!\+)", " - "), (r" - 1\b", ""), (r" - ", " + "),
         (r" == ", " != "), (r" != ", " == "), (r" = (?=[^>]*then)", " ≠ "), (r" ≠ ", " = "), (r"\btrue\b", "false"), (r"\bfalse\b", "true"), (r" && ", " || "), (r" \|\| ", " && "),
         (r" ∧ ", " ∨ "), (r" ∨ ", " ∧ "), (r"\.take\b", ".drop"), (r"\.drop\b", ".take"), (r"\bmin\b", "max"), (r"\bmax\b", "min"), (r"\b8 \* ", "7 * "), (r" / 8", " / 4"), (r" % 8", " % 4"),
         (r"\.error \.(\w+)", ".error .zeroDivision"), (r"\bsome 0\b", "some 1"), (r"\b0\b", "1"), (r"\b1\b", "0"), (r"\b2\b", "3"),
         (r"(\w+) \+\+ (\w+)", r"\2 ++ \1"), (r"\.signed\b", ".little"), (r"\.big\b", ".little"), (r"\.little\b", ".big"), (r"\bnone\b", "some 0"), (r"if (.*) then", r"if ¬ (\1) then"),
         (r"\.ok \(\.list acc\)", ".ok (.list [])"), (r"\.getD 0", ".getD 1"), (r"\.toNat", ".natAbs"), (r"\.reverse\b", ""), (r"\boff\b", "(off + 1)")]




def defs():
    out = []
    for f in sorted(glob.glob(ROOT + "/Verif/Struct/*.lean") + glob.glob(ROOT + "/Verif/Buffer/*.lean") + glob.glob(ROOT + "/Verif/*.lean")):
        if os.path.basename(f)[:-5] in SPEC:
            continue
        lines = open(f).read().split("\n")
        i = 0
        while i < len(lines):
            m = DEF.match(lines[i])
            if m:
                j = i + 1
                while j < len(lines) and not DECL.match(lines[j]):
                    j += 1
                out.append((os.path.relpath(f, ROOT), m.group(1), i, j))
                i = j
            else:
                i += 1
    return out


def edits(lines, i, j, buffers):
    res = []
    for ln in range(i, j):
        s = lines[ln]
        start = 0
        if ln == i and ":=" in s:
            start = s.index(":=") + 2
        elif ln == i or (ln > i and not any(":=" in x or x.lstrip().startswith("|") for x in lines[i:ln + 1])):
            continue  # the signature
        code = s.split("--")[0]
        for rx, new in RULES:
            if "zeroDivision" in new and buffers:
                continue  # pack and unpack report every failure alike
            for m in re.finditer(rx, code):
                if m.start() < start:
                    continue
                if code.lstrip().startswith("|") and m.start() < (code.index("=>") if "=>" in code else len(code)):
                    continue  # a pattern
                t = code[:m.start()] + m.expand(new) + code[m.end():] + s[len(code):]
                if t != s:
                    res.append((ln, s, t))
    return res


THM = re.compile(r"^(?:@\[[^\]]*\]\s*)?(?:private |protected |noncomputable )*(theorem|lemma|def|abbrev|instance|example)\b")


def owner(a, b):
    src = open(os.path.join(DST, a)).read().split("\n")
    k = b - 1
    while k > 0 and not THM.match(src[k]):
        k -= 1
    w = re.match(r"^(?:@\[[^\]]*\]\s*)?(?:private |protected |noncomputable )*(\w+)\s*(\S*)", src[k])
    return w.group(2) if w.group(1) != "example" else "example@%s:%d" % (a, k + 1)


class Res:
    pass


def until_theorem(env):
    """Build until a file with a failing theorem is reported."""
    p = subprocess.Popen(["nice", "lake", "build"], cwd=DST, stdout=subprocess.PIPE, stderr=subprocess.STDOUT, text=True, env=env, start_new_session=True)
    out, hit = [], False
    for l in p.stdout:
        out.append(l)
        m = re.match(r"^error: (Verif/\S+\.lean):(\d+):\d+", l)
        if m and not owner(m.group(1), int(m.group(2))).startswith("example@"):
            hit = True
        if hit and re.match(r"^[✖✔⚠ℹ] \[", l):
            os.killpg(p.pid, signal.SIGKILL)
            break
    p.wait()
    r = Res()
    r.stdout, r.returncode = "".join(out), p.returncode
    return r


def main():
    args = sys.argv[1:]
    per, seed = 2, 1
    if "--per" in args:
        k = args.index("--per"); per = int(args[k + 1]); del args[k:k + 2]
    if "--seed" in args:
        k = args.index("--seed"); seed = int(args[k + 1]); del args[k:k + 2]
    lst = "--list" in args
    if lst:
        args.remove("--list")
    only = set(args)
    log = [json.loads(l) for l in open(LOG)]
    done = {x["name"] for x in log}
    touched = {(x.get("file"), x["definition"].split(".")[-1]) for x in log} | {
        (x["file"], x["definition"].split(".")[-1]) for x in json.load(open("/verif/seeded/mutations.json"))}
    todo = []
    for f, name, i, j in defs():
        if only and name not in only:
            continue
        lines = open(os.path.join(ROOT, f)).read().split("\n")
        es = edits(lines, i, j, "/Buffer/" in f)
        rnd = random.Random("%s%s%d" % (f, name, seed))
        rnd.shuffle(es)
        todo.append(((f, name.split(".")[-1]) in touched, f, name, i, j, es))
    todo.sort(key=lambda t: t[0])
    if lst:
        for t in todo:
            print(t[0], t[1], t[2], len(t[5]))
        return
    for was, f, name, i, j, es in todo:
        good = 0
        for n, (ln, old, new) in enumerate(es):
            if good >= per or n >= 4 * per:
                break
            nm = "auto%d-%s-%d" % (seed, name, n)
            if nm in done:
                good += 1
                continue
            shutil.rmtree(DST, ignore_errors=True)
            subprocess.check_call(["cp", "-a", ROOT, DST])
            p = os.path.join(DST, f)
            ls = open(p).read().split("\n")
            ls[ln] = new
            open(p, "w").write("\n".join(ls))
            mod = f[:-5].replace("/", ".")
            env = dict(os.environ, LEAN_NUM_THREADS="2")
            r = subprocess.run(["nice", "lake", "build", mod], cwd=DST, stdout=subprocess.PIPE, stderr=subprocess.STDOUT, text=True, env=env)
            errs = [(m.group(1), int(m.group(2))) for m in re.finditer(r"^error: (Verif/\S+\.lean):(\d+):\d+", r.stdout, re.M)]
            if any(a == f and i < b <= j for a, b in errs):
                continue  # does not compile
            if not errs:
                r = until_theorem(env)
                errs = [(m.group(1), int(m.group(2))) for m in re.finditer(r"^error: (Verif/\S+\.lean):(\d+):\d+", r.stdout, re.M)]
            good += 1
            names = []
            for a, b in errs:
                x = owner(a, b)
                if x not in names:
                    names.append(x)
            rec = {"name": nm, "definition": name, "file": f, "edit": "line %d: %s => %s" % (ln + 1, old.strip(), new.strip()), "breaks": "(mechanical edit)",
                   "expected": [], "first_failures": names, "tightened": []}
            if not names:
                rec["note"] = "survived" if r.returncode == 0 else "build error: " + r.stdout[-300:]
            open(LOG, "a").write(json.dumps(rec, ensure_ascii=False) + "\n")
            print(nm, "|", rec["edit"][:160], "|", "SURVIVED" if not names else names[:3], flush=True)


main()
