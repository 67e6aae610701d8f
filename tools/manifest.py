#!/usr/bin/env python3
"""Writes MANIFEST.json.  Checks that every theorem named exists in lean/Verif."""
import json, os, re, glob
root = os.path.join(os.path.dirname(os.path.abspath(__file__)), "..")
C = []
def c(prop, status, theorems, note):
    C.append(dict(property=prop, status=status, theorems=theorems, note=note))
exec(open(os.path.join(root, "tools", "claims.py")).read())
names = set()
for f in glob.glob(os.path.join(root, "lean", "Verif", "**", "*.lean"), recursive=True):
    ns = []
    for line in open(f):
        m = re.match(r"namespace (\S+)", line)
        if m: ns.append(m.group(1))
        m = re.match(r"end (\S+)", line)
        if m and ns and ns[-1] == m.group(1): ns.pop()
        m = re.match(r"(?:private |protected )?theorem (\S+)", line)
        if m: names.add(".".join(ns + [m.group(1)]))
for x in C:
    for t in x["theorems"]:
        assert t in names, t
props = [json.loads(l)["id"] for l in open(os.path.join(root, "properties.jsonl"))]
have = {x["property"] for x in C}
print("properties without claim:", [p for p in props if p not in have])
for x in C: assert x["property"] in props, x
json.dump({"claims": C}, open(os.path.join(root, "MANIFEST.json"), "w"), indent=1)
mods = []
for f in sorted(glob.glob(os.path.join(root, "lean", "Verif", "**", "*.lean"), recursive=True)):
    m = os.path.relpath(f, os.path.join(root, "lean"))[:-5].replace("/", ".")
    if m != "Verif.Audit": mods.append(m)
imps = "\n".join("import " + m for m in mods) + "\n"
open(os.path.join(root, "lean", "Verif", "Audit.lean"), "w").write(
    imps + "/- Generated by tools/manifest.py: axioms of every theorem named in MANIFEST.json. -/\n\n"
    + "\n".join("#print axioms " + t for x in C for t in x["theorems"]) + "\n")
open(os.path.join(root, "lean", "Verif.lean"), "w").write(imps + "import Verif.Audit\n")
