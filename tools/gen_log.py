#!/usr/bin/env python3
"""Add results of mutate.py to /verif/seeded/LOG.jsonl: gen_log.py RESULTS...  (what was tightened is in seeded/tightened.json)"""
import sys, json, os
sys.path.insert(0, "/verif/seeded")
from mutations import MUTATIONS
LOG = "/verif/seeded/LOG.jsonl"
tight = json.load(open("/verif/seeded/tightened.json"))
log = {}
claims = {c["property"]: {n.replace("Verif.", "") for n in c["theorems"]} for c in json.load(open("/verif/MANIFEST.json"))["claims"]}
if os.path.exists(LOG):
    for l in open(LOG):
        if l.strip(): r = json.loads(l); log[r["id"]] = r
for f in sys.argv[1:]:
    for l in open(f):
        r = json.loads(l)
        if r["problem"] and not r["direct"]: continue
        m = MUTATIONS[r["id"]]
        failed = sorted({n.replace("Verif.", "") for n in r["failed"] or [d for d in r["direct"] if ": example" not in d]})
        log[r["id"]] = {"id": r["id"], "definition": f"{m['defn']} (lean/Verif/{m['file']})", "edit": f"`{m['old']}` -> `{m['new']}`",
            "claim_broken": m["claim"], "properties": m["breaks"], "theorems_failed": failed,
            "first_to_fail": [d for d in r["direct"] if ": example" not in d][:6], "theorems_tightened": []}
for i, t in tight.items():
    if i in log: log[i]["theorems_tightened"] = t["theorems"]; log[i]["note"] = t["note"]
with open(LOG, "w") as o:
    for i in sorted(log): o.write(json.dumps(log[i]) + "\n")
print(len(log))
for i in sorted(log):
    if not log[i]["theorems_failed"] or any(not any(n in claims[p] for n in log[i]["theorems_failed"]) for p in log[i]["properties"]): print("missed", i, log[i]["claim_broken"])
