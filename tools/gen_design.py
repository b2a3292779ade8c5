#!/usr/bin/env python3
# Writes /verif/DESIGN.md: tools/design_body.md, the table of theorems and the list of axioms.
# The axioms come from `#print axioms` (needs a finished `lake build`).
import json, re, subprocess, os, collections, glob
V = os.path.dirname(os.path.dirname(os.path.abspath(__file__)))
body = open(V + "/tools/design_body.md").read()
m = json.load(open(V + "/MANIFEST.json"))
names = []
for c in m["claims"]:
    for t in c["theorems"]:
        if t not in names:
            names.append(t)
src = "/tmp/PrintAxioms.lean"
open(src, "w").write("import Verif\n" + "\n".join("#print axioms " + t for t in names) + "\n")
out = subprocess.run(["lake", "env", "lean", src], cwd=V + "/lean", capture_output=True, text=True).stdout
ax = {}
for r in re.finditer(r"'([^']+)' (does not depend on any axioms|depends on axioms: \[([^\]]*)\])", out):
    ax[r.group(1)] = ", ".join(x.strip() for x in (r.group(3) or "none").split(","))
missing = [t for t in names if t not in ax]
assert not missing, missing
where = {}
for f in sorted(glob.glob(V + "/lean/Verif/**/*.lean", recursive=True)):
    for r in re.finditer(r"^(?:private )?theorem ([\w.']+)", open(f).read(), re.M):
        where.setdefault(r.group(1).split(".")[-1], f[len(V) + 6:])
short = {"propext, Classical.choice, Quot.sound": "P C Q", "propext, Quot.sound": "P Q",
         "propext": "P", "none": "–", "Quot.sound": "Q", "propext, Classical.choice": "P C"}
tab = ["| property | status | theorem | file | axioms |", "|---|---|---|---|---|"]
for c in m["claims"]:
    for i, t in enumerate(c["theorems"]):
        tab.append("| %s | %s | `%s` | `%s` | %s |" % (c["property"] if i == 0 else "", c["status"] if i == 0 else "",
            t.replace("Hfst.", "", 1), where.get(t.split(".")[-1], "?").replace("Verif/", "", 1), short.get(ax[t], ax[t])))
body = re.sub(r"@@MORE_\w+@@\n", "", body)
open(V + "/DESIGN.md", "w").write(body.rstrip() + "\n\n" + "\n".join(tab) + "\n")
print(len(names), "theorems", collections.Counter(ax.values()))
