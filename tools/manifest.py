#!/usr/bin/env python3
"""Regenerates MANIFEST.json from the table below and checks that every theorem name exists."""
import json, re, pathlib
root = pathlib.Path(__file__).resolve().parent.parent
ids = [json.loads(l)["id"] for l in open(root / "properties.jsonl") if l.strip()]
names = set()
for f in (root / "lean/Verif").rglob("*.lean"):
    names |= set(re.findall(r"^theorem\s+(\S+)", f.read_text(), re.M))
T = {}
exec((root / "tools/claims.py").read_text())
out = []
for i in ids:
    st, note = T.get(i, ("partial", "not modelled yet"))
    th = sorted(n for n in names if n.startswith(i + "_"))
    if not th and st == "proved": raise SystemExit("no theorem for " + i)
    out.append({"property": i, "status": st, "theorems": th, "note": note})
json.dump({"claims": out}, open(root / "MANIFEST.json", "w"), indent=1)
print({s: sum(1 for c in out if c["status"] == s) for s in ("proved", "partial", "not_applicable")})
print("without theorem:", [c["property"] for c in out if not c["theorems"]])
