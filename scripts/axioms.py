#!/usr/bin/env python3
"""Writes AXIOMS.md: the axioms that each theorem of MANIFEST.json depends on (needs a finished `lake build`)."""
import json, os, re, subprocess, tempfile
here = os.path.dirname(os.path.dirname(os.path.abspath(__file__)))
claims = json.load(open(os.path.join(here, "MANIFEST.json")))["claims"]
names = [t for c in claims for t in c["theorems"]]
with tempfile.NamedTemporaryFile("w", suffix=".lean", delete=False) as f:
    f.write("import Verif\n" + "".join("#print axioms %s\n" % n for n in names))
out = subprocess.run(["lake", "env", "lean", f.name], cwd=os.path.join(here, "lean"), capture_output=True, text=True).stdout
os.unlink(f.name)
ax = {}
for n, a in re.findall(r"'([^']+)' depends on axioms: \[([^\]]*)\]", out):
    ax[n] = ", ".join(sorted(x.strip() for x in a.replace("\n", " ").split(",")))
for n in re.findall(r"'([^']+)' does not depend on any axioms", out):
    ax[n] = "none"
missing = [n for n in names if n not in ax]
assert not missing, missing
with open(os.path.join(here, "AXIOMS.md"), "w") as f:
    f.write("# Axioms\n\nPrinted by `#print axioms` (`scripts/axioms.py`).\n\n| theorem | axioms |\n|---|---|\n")
    for n in names:
        f.write("| `%s` | %s |\n" % (n.replace("Marco.Props.", ""), ax[n]))
