#!/usr/bin/env python3
"""Writes MANIFEST.json from the table below and checks that the theorem names exist."""
import json, re, pathlib, sys
root = pathlib.Path(__file__).resolve().parent.parent
P = "PMondriaan."
claims = []
def claim(prop, status, theorems, note):
    claims.append({"property": prop, "status": status,
                   "theorems": [P + t for t in theorems], "note": note})

exec((root / "tools" / "claims.py").read_text())

src = "\n".join(p.read_text() for p in (root / "lean/Verif/Props").glob("*.lean"))
names = set(re.findall(r"^theorem ([A-Za-z0-9_'.]+)", src, re.M))
bad = [t for c in claims for t in c["theorems"] if t[len(P):] not in names]
if bad:
    print("missing:", bad); sys.exit(1)
cov = {c["property"] for c in claims}
props = [json.loads(l)["id"] for l in (root / "properties.jsonl").read_text().splitlines() if l.strip()]
print("not claimed:", [p for p in props if p not in cov])
used = {t[len(P):] for c in claims for t in c["theorems"]}
print("unused C theorems:", sorted(n for n in names if re.match(r"C\d\d", n) and n not in used))
claims.sort(key=lambda c: c["property"])
(root / "MANIFEST.json").write_text(json.dumps({"claims": claims}, indent=1) + "\n")
