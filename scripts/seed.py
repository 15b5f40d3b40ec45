#!/usr/bin/env python3
"""Tests the theorems against wrong programs.

usage: seed.py MUTANTS.json [LOG.jsonl]
       seed.py --post LOG.jsonl    (recompute the verdicts of a log)

Each mutant is {"file", "in", "old", "new", "property", "claim"}. The project is copied to a scratch
directory, the text `old` (which has to occur once in the definition `in`) is
replaced by `new`, and the project is
rebuilt. The declarations with errors are recorded in the log ("failed"); their proofs are then left
out (in the scratch copy) so that the modules depending on them are checked too. So are the theorems of
the property whose proofs use, directly or not, a declaration with errors ("uses_failed"; by names, so
this is approximate). A mutant survives if no theorem of the property is in either list.
"""
import json, os, re, subprocess, sys, shutil

SRC = os.path.join(os.path.dirname(os.path.abspath(__file__)), "..", "lean")
TMP = os.environ.get("SEED_TMP", "/tmp/seed")
PRISTINE, WORK = TMP + "/pristine", TMP + "/work"
DECL = re.compile(r"^(?:@\[.*?\]\s*)?(?:private |noncomputable |protected )*(theorem|lemma|def|instance|example|abbrev|structure|inductive)\b\s*([^\s:({\[]*)")

def copy(a, b):
    shutil.rmtree(b, ignore_errors=True)
    subprocess.run(["cp", "-a", a, b], check=True)

def modules(root):
    out = {}
    for d, _, fs in os.walk(root + "/Verif"):
        for f in fs:
            if f.endswith(".lean"):
                p = os.path.join(d, f)
                out[os.path.relpath(p, root)[:-5].replace("/", ".")] = p
    return out

def imports(path):
    return [l.split()[1] for l in open(path) if l.startswith("import Verif")]

def decls(path):
    out = []
    for n, l in enumerate(open(path), 1):
        m = DECL.match(l)
        if m:
            out.append((n, m.group(1), m.group(2)))
    return out

def enclosing(path, line):
    best = None
    for n, k, name in decls(path):
        if n <= line:
            best = (k, name, n)
    if best is None:
        return "?"
    return best[1] if best[0] != "example" and best[1] else "example:%d" % best[2]

TOKEN = re.compile(r"[^\W\d][\w'.!?₀-₉]*", re.UNICODE)

def uses(root):
    """For each declaration, the components of the identifiers in its text."""
    out = {}
    for mod, p in modules(root).items():
        lines = open(p).read().split("\n")
        ds = decls(p)
        for (n, kind, name), e in zip(ds, [d[0] for d in ds[1:]] + [len(lines) + 1]):
            text = "\n".join(lines[n - 1:e - 1])
            text = re.sub(r"/-.*?-/", "", text, flags=re.S)
            key = name if kind != "example" and name else "example:%d" % n
            out[(mod, key)] = {c for t in TOKEN.findall(text) for c in t.split(".")}
    return out

def affected(graph, failed):
    """Declarations that use a failed one, directly or not."""
    bad = {f.split(".")[-1] for f in failed if not f.startswith("example")}
    hit, grew = set(), True
    while grew:
        grew = False
        for (mod, name), ts in graph.items():
            if ".Model." in mod or (mod, name) in hit:
                continue
            if ts & bad:
                hit.add((mod, name)); grew = True
                if ":" not in name:
                    bad.add(name.split(".")[-1])
    return {n for _, n in hit}

def judge(r, graph):
    prop = r["property"]
    r.pop("blocked", None)
    hit = affected(graph, r["failed"])
    r["uses_failed"] = sorted(n for n in hit if n.startswith(prop + "_") and n not in r["failed"])
    direct = [n for n in r["failed"] if n.startswith(prop + "_")]
    r["verdict"] = ("model does not compile" if not r["model_compiles"] else
                    "caught" if direct or r["uses_failed"] else "survived")

def post(log):
    graph = uses(SRC)
    rs = [json.loads(l) for l in open(log)]
    for r in rs:
        judge(r, graph)
    with open(log, "w") as f:
        for r in rs:
            f.write(json.dumps(r, ensure_ascii=False) + "\n")

def leave_out(path, names):
    """Remove the proofs of the given declarations."""
    lines = open(path).read().split("\n")
    ds = decls(path)
    edits = []
    for (n, kind, name), e in zip(ds, [d[0] for d in ds[1:]] + [len(lines) + 1]):
        key = name if kind != "example" and name else "example:%d" % n
        if key not in names:
            continue
        depth, at = 0, None
        for i in range(n - 1, e - 1):
            l = lines[i]
            if i > n - 1 and depth == 0 and re.match(r"\s*\| ", l):
                at = (i, 0); break
            for j, c in enumerate(l):
                if c in "([{⟨": depth += 1
                elif c in ")]}⟩": depth -= 1
                elif c == ":" and depth == 0 and l[j:j + 2] == ":=":
                    at = (i, j); break
            if at: break
        if at is None:
            continue
        # the end of the proof: the next line that is neither indented nor empty
        z = at[0] + 1
        while z < e - 1 and (lines[z] == "" or lines[z][0] in " \t·"):
            z += 1
        edits.append((at, z))
    for (i, j), z in reversed(edits):
        lines[i:z] = [lines[i][:j] + " := sorry", ""]
    open(path, "w").write("\n".join(lines))

def run(m):
    copy(PRISTINE, WORK)
    p = WORK + "/" + m["file"]
    s = open(p).read()
    # the text of the definition `in`
    lines = s.split("\n")
    starts = [n for n, _, name in decls(p) if name == m["in"]]
    found = []
    for a in [n - 1 for n in starts]:
        b = a + 1
        while b < len(lines) and not lines[b].startswith(("/--", "end ", "namespace ", "/-!", "mutual")) \
                and not DECL.match(lines[b]):
            b += 1
        text = "\n".join(lines[a:b])
        if m["old"] in text:
            found.append((a, b, text))
    if len(found) != 1 or found[0][2].count(m["old"]) != 1:
        return {"error": "the old text is not unique in %s" % m["in"]}
    a, b, text = found[0]
    edited = m["in"]
    new = "\n".join(lines[:a] + [text.replace(m["old"], m["new"])] + lines[b:])
    open(p, "w").write(new)
    if m.get("dry"):
        return {"error": "dry"}
    failed, bad = {}, set()
    ok = None
    for _ in range(int(os.environ.get("SEED_ROUNDS", "8"))):
        r = subprocess.run(["lake", "build"], cwd=WORK, capture_output=True, text=True)
        out = r.stdout + r.stderr
        if ok is None:
            ok = r.returncode == 0
        new = {}
        for f, l in re.findall(r"error: (Verif/\S+\.lean):(\d+):\d+", out):
            mod = f[:-5].replace("/", ".")
            bad.add(mod)
            failed.setdefault(mod, [])
            name = enclosing(WORK + "/" + f, int(l))
            if name not in failed[mod]:
                failed[mod].append(name)
                new.setdefault(f, set()).add(name)
        # Go on with what depends on the modules with errors: their failed proofs are left out.
        if not new or any("/Model/" in f for f in new):
            break
        for f in new:
            leave_out(WORK + "/" + f, new[f])
    return {"definition": m["file"][:-5].replace("/", ".") + ": " + edited,
            "edit": "%s  ==>  %s" % (m["old"].strip(), m["new"].strip()),
            "property": m["property"], "claim_broken": m["claim"],
            "model_compiles": not any(".Model." in k for k in bad),
            "failed": [n for k in sorted(failed) for n in failed[k]],
            "ok": ok}

def main():
    muts = json.load(open(sys.argv[1]))
    log = sys.argv[2] if len(sys.argv) > 2 else None
    os.makedirs(TMP, exist_ok=True)
    copy(SRC, PRISTINE)
    graph = uses(PRISTINE)
    for n, m in enumerate(muts):
        r = run(m)
        if "error" in r:
            print(n, "ERROR", m["file"], repr(m["old"]), r["error"], flush=True); continue
        judge(r, graph)
        r["tightened"] = m.get("tightened", [])
        print(n, r["verdict"], r["definition"], "|", m["property"], "| failed:", r["failed"][:6],
              "uses:", r["uses_failed"][:4], flush=True)
        if log:
            with open(log, "a") as f:
                f.write(json.dumps(r, ensure_ascii=False) + "\n")

if sys.argv[1] == "--post":
    post(sys.argv[2])
else:
    main()
