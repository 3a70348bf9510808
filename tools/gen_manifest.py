#!/usr/bin/env python3
"""Writes /verif/MANIFEST.json and /verif/lean/Verif.lean from the theorem names Cnn_* in lean/Verif/Props."""
import json, os, re, glob
root = os.path.join(os.path.dirname(os.path.abspath(__file__)), "..")
NOTES = {}
notes_file = os.path.join(root, "tools", "notes.json")
if os.path.exists(notes_file): NOTES = json.load(open(notes_file))
thms = {}
for f in sorted(glob.glob(os.path.join(root, "lean/Verif/Props/*.lean"))):
    ns = []
    for line in open(f):
        m = re.match(r"namespace (\S+)", line)
        if m: ns.append(m.group(1))
        m = re.match(r"end (\S+)", line)
        if m and ns and ns[-1] == m.group(1): ns.pop()
        m = re.match(r"(?:private )?theorem (C(\d+)_\S+)", line)
        if m: thms.setdefault("C%02d" % int(m.group(2)), []).append(".".join(ns + [m.group(1)]))
props = [json.loads(l) for l in open(os.path.join(root, "properties.jsonl"))]
claims = []
for p in props:
    i = p["id"]
    t = thms.get(i, [])
    n = NOTES.get(i, {})
    if isinstance(n, str): n = {"note": n}
    status = n.get("status") or ("proved" if t and not all(x.endswith("_partial") for x in t) else "partial")
    note = n.get("note", p["title"] if t else "not yet modelled")
    claims.append({"property": i, "status": status, "theorems": t, "note": note})
json.dump({"claims": claims}, open(os.path.join(root, "MANIFEST.json"), "w"), indent=1)
mods = []
for d in ["Num", "Model", "Spec", "Lemmas", "Props", "Run"]:
    for f in sorted(glob.glob(os.path.join(root, "lean/Verif", d, "*.lean"))):
        mods.append("import Verif.%s.%s" % (d, os.path.basename(f)[:-5]))
open(os.path.join(root, "lean/Verif.lean"), "w").write("\n".join(mods) + "\n")
print(sum(map(len, thms.values())), "theorems;", [p["id"] for p in props if p["id"] not in thms])
