#!/usr/bin/env python3
"""Rewrites the section "Axioms" of DESIGN.md from `#print axioms` for the theorems of MANIFEST.json.

Run in /verif after `lake build`."""
import json, os, re, subprocess, tempfile

here = os.path.dirname(os.path.dirname(os.path.abspath(__file__)))
claims = json.load(open(os.path.join(here, "MANIFEST.json")))["claims"]
names = [(c["property"], t) for c in claims for t in c["theorems"]]
src = "import Verif\n" + "".join("#print axioms %s\n" % t for _, t in names)
with tempfile.NamedTemporaryFile("w", suffix=".lean", delete=False) as f:
    f.write(src)
out = subprocess.run(["lake", "env", "lean", f.name], cwd=os.path.join(here, "lean"), capture_output=True, text=True).stdout
os.unlink(f.name)
found = {}
for m in re.finditer(r"'([^']+)' (does not depend on any axioms|depends on axioms: \[([^\]]*)\])", out):
    found[m.group(1)] = " ".join((m.group(3) or "none").replace(",", " ").split())
rows = ["| property | theorem | axioms |", "|---|---|---|"]
for p, t in names:
    rows.append("| %s | `%s` | %s |" % (p, t, found[t]))
path = os.path.join(here, "DESIGN.md")
text = open(path).read().split("## Axioms\n")[0].rstrip("\n")
text += "\n\n## Axioms\n\nGenerated by `tools/axioms.py` with `#print axioms`.\n\n" + "\n".join(rows) + "\n"
open(path, "w").write(text)
print(len(names), sorted(set(found.values())))
