#!/usr/bin/env python3
"""Builds DESIGN.md from tools/design_head.md, tools/design_props.txt, tools/design_tail.md and the theorem names."""
import json, os
D = os.path.dirname(os.path.abspath(__file__)) + "/"
man = {c["property"]: c for c in json.load(open(D + "../MANIFEST.json"))["claims"]}
titles = {}
for l in open(D + "../properties.jsonl"):
    p = json.loads(l); titles[p["id"]] = p["title"]
out = [open(D + "design_head.md").read().rstrip(), ""]
seen = set()
for l in open(D + "design_props.txt"):
    l = l.rstrip("\n")
    if not l: continue
    if l.startswith("# "):
        out += ["", "### " + l[2:], ""]
        continue
    i, m, p = l.split("|", 2)
    seen.add(i)
    th = ", ".join("`" + t.split(".")[-1] + "`" for t in man[i]["theorems"])
    out.append(f"* **{i} {titles[i]}.** M: {m}. P: {p}. {th}")
missing = [i for i in titles if i not in seen]
if missing: print("no design line:", missing)
out += ["", open(D + "design_tail.md").read().rstrip(), ""]
open(D + "../DESIGN.md", "w").write("\n".join(out))
