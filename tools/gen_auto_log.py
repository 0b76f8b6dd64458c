#!/usr/bin/env python3
"""Add the survivors among the results of automutate.py to /verif/seeded/LOG.jsonl: gen_auto_log.py RESULTS...  (what is to be said of survivors is in seeded/survivors.json)"""
import sys, json, os
LOG = "/verif/seeded/LOG.jsonl"
said = json.load(open("/verif/seeded/survivors.json"))
log = {}
for l in open(LOG):
    if l.strip(): r = json.loads(l); log[r["id"]] = r
for f in sys.argv[1:]:
    for l in open(f):
        r = json.loads(l)
        if r["status"] != "survivor": continue
        th = [h.split()[1] for h in r["hits"] if h.startswith("theorem ")]
        e = {"id": r["id"], "definition": f"{r['defn']} (lean/Verif/{r['file']})", "edit": f"`{r['line'][0].strip()}` -> `{r['line'][1].strip()}`",
             "claim_broken": f"{r['defn']} does what the cited lines of the code do", "theorems_failed": th, "theorems_tightened": []}
        if r["id"] in said: e.update(said[r["id"]])
        log[r["id"]] = e
with open(LOG, "w") as o:
    for i in sorted(log): o.write(json.dumps(log[i]) + "\n")
print(len(log), [i for i in sorted(log) if not log[i]["theorems_failed"]])
