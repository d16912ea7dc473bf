#!/usr/bin/env python3
"""Write MANIFEST.json and lean/Verif/Audit.lean from the table below; check that every name exists."""
import json, os, re, subprocess, sys
root = os.path.dirname(os.path.dirname(os.path.abspath(__file__)))
claims = []
def P(pid, theorems, note="", status="proved"):
    claims.append({"property": pid, "status": status,
                   "theorems": ["Ulz.Props." + t for t in theorems.split()], "note": note})
exec(open(os.path.join(root, "tools", "claims.py")).read())
names = set()
for d, _, fs in os.walk(os.path.join(root, "lean", "Verif", "Props")):
    for f in fs:
        if f.endswith(".lean"):
            for m in re.finditer(r"^theorem\s+([^\s:({\[]+)", open(os.path.join(d, f)).read(), re.M):
                names.add("Ulz.Props." + m.group(1))
bad = [t for c in claims for t in c["theorems"] if t not in names]
if bad: sys.exit("unknown theorems: %s" % bad)
ids = [json.loads(l)["id"] for l in open(os.path.join(root, "properties.jsonl"))]
for c in claims:
    if c["property"] not in ids: sys.exit("unknown property " + c["property"])
json.dump({"claims": claims}, open(os.path.join(root, "MANIFEST.json"), "w"), indent=1)
mods = sorted(l.split()[1] for l in open(os.path.join(root, "lean", "Verif.lean")) if l.startswith("import Verif.Props"))
with open(os.path.join(root, "lean", "Verif", "Audit.lean"), "w") as o:
    o.write("".join("import %s\n" % m for m in mods))
    o.write("/-! Axiom audit, generated by tools/manifest.py: the build log lists the axioms of every claimed\n"
            "theorem (only propext, Classical.choice and Quot.sound may appear). -/\n")
    done = set()
    for c in claims:
        for t in c["theorems"]:
            if t not in done:
                done.add(t); o.write("#print axioms %s\n" % t)
print(len(claims), "claims", len(done), "theorems; missing:", [i for i in ids if i not in [c["property"] for c in claims]])
