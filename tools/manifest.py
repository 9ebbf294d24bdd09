#!/usr/bin/env python3
"""Writes MANIFEST.json and lean/Verif/Axioms.lean from the claims below.
Usage: tools/manifest.py   (then `lake build` checks that every name exists and prints its axioms)"""
import json, os
ROOT = os.path.dirname(os.path.dirname(os.path.abspath(__file__)))
M, L = "Gnucap.Mat.", "Gnucap.Load."
claims = []
def c(prop, status, names, note):
    claims.append({"property": prop, "status": status, "theorems": names, "note": note})

exec(open(os.path.join(ROOT, "tools", "claims.py")).read())

claims.sort(key=lambda d: d["property"])
with open(os.path.join(ROOT, "MANIFEST.json"), "w") as f:
    f.write('{"claims": [\n' + ",\n".join(json.dumps(d) for d in claims) + "\n]}\n")
mods = sorted(m for m in os.listdir(os.path.join(ROOT, "lean/Verif")) if m.endswith(".lean") and m != "Axioms.lean")
seen = []
for d in claims:
    for t in d["theorems"]:
        if t not in seen:
            seen.append(t)
with open(os.path.join(ROOT, "lean/Verif/Axioms.lean"), "w") as f:
    for m in mods:
        f.write("import Verif." + m[:-5] + "\n")
    f.write("\n/-! Generated by tools/manifest.py: prints the axioms every claimed theorem depends on. -/\n\n")
    for t in seen:
        f.write("#print axioms " + t + "\n")
main = [l for l in open(os.path.join(ROOT, "lean/Verif.lean")).read().split("\n") if l.strip()]
for m in sorted(os.listdir(os.path.join(ROOT, "lean/Verif"))):
    line = "import Verif." + m[:-5]
    if m.endswith(".lean") and line not in main:
        main.append(line)
open(os.path.join(ROOT, "lean/Verif.lean"), "w").write("\n".join(main) + "\n")
print(len(claims), "claims,", len(seen), "theorems")
