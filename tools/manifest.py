#!/usr/bin/env python3
"""Writes MANIFEST.json from tools/claims.txt and checks that every property has an entry.

claims.txt: one block per line:  ID | status | theorem theorem ... | note
"""
import json, re, pathlib
root = pathlib.Path(__file__).resolve().parent.parent
props = [json.loads(l)["id"] for l in (root/"properties.jsonl").read_text().splitlines() if l.strip()]
claims = {}
for line in (root/"tools/claims.txt").read_text().splitlines():
    if not line.strip() or line.startswith("#"): continue
    i, st, th, note = [x.strip() for x in line.split("|", 3)]
    claims[i] = {"property": i, "status": st, "theorems": th.split(), "note": note}
names = set()
for f in (root/"lean/Verif").rglob("*.lean"):
    ns = []
    for l in f.read_text().splitlines():
        m = re.match(r"(?:private |protected )?theorem (\S+)", l)
        if m: names.add(m.group(1).split(".")[-1])
for c in claims.values():
    for t in c["theorems"]:
        if t.split(".")[-1] not in names: print("MISSING theorem", c["property"], t)
missing = [p for p in props if p not in claims]
print("no claim for:", missing)
out = [claims[p] for p in props if p in claims]
(root/"MANIFEST.json").write_text(json.dumps({"claims": out}, indent=1, ensure_ascii=False)+"\n")
