#!/usr/bin/env python3
"""Writes MANIFEST.json from the table below; every name is checked to occur in the Lean sources."""
import json, pathlib, re
root = pathlib.Path(__file__).resolve().parent.parent
T = {}
def claim(prop, status, theorems, note):
    T[prop] = {"property": prop, "status": status, "theorems": ["Verif." + t for t in theorems.split()], "note": note}

exec((root / "tools/claims.py").read_text())

src = "\n".join(p.read_text() for p in (root / "lean/Verif").rglob("*.lean"))
for c in T.values():
    for t in c["theorems"]:
        if not re.search(r"^theorem " + re.escape(t[6:]) + r"\b", src, re.M):
            raise SystemExit(f"missing {t}")
props = [json.loads(l)["id"] for l in (root / "properties.jsonl").read_text().splitlines() if l.strip()]
missing = [p for p in props if p not in T]
if missing:
    print("no claim yet:", " ".join(missing))
out = {"claims": [T[p] for p in props if p in T]}
(root / "MANIFEST.json").write_text(json.dumps(out, indent=1, ensure_ascii=False) + "\n")
