#!/usr/bin/env python3
"""Run the changes of seeded/auto.py one by one and see whether any proof notices: automutate.py SCRATCH [SEED]
One JSON line per change goes to SCRATCH.results: the declarations that fail in the first build.  A change that breaks no theorem is a `survivor`."""
import sys, os, re, json, subprocess, shutil, time
sys.path.insert(0, "/verif/seeded"); sys.path.insert(0, "/verif/tools")
import auto
SRC = "/tmp/mutbase"
DECL = re.compile(r"^(?:private |protected |noncomputable |@\[[^\]]*\] ?)*(theorem|lemma|example|def|abbrev|instance|inductive|structure|macro|end|namespace|open|section|variable|deriving|set_option)\b")
ERR = re.compile(r"^error: (Verif[\w/]*\.lean):(\d+):\d+:", re.M)
d = sys.argv[1]; seed = int(sys.argv[2]) if len(sys.argv) > 2 else 1

def decl(d, fn, ln):
    """The declaration at a line: its kind, its name and the line it starts at."""
    lines = open(f"{d}/{fn}").read().split("\n")
    k = ln - 1
    while k > 0 and not DECL.match(lines[k]): k -= 1
    g = DECL.match(lines[k]); kind = g.group(1) if g else "?"
    nm = lines[k][:70] if kind == "example" else (re.match(r".*?(?:theorem|lemma|def|abbrev|instance)\s+(\S+)", lines[k]) or [None, lines[k][:60]])[1]
    return kind, nm, k

def build(d):
    """Build, and stop as soon as a theorem fails."""
    r = subprocess.Popen(["lake", "build"], cwd=d, stdout=subprocess.PIPE, stderr=subprocess.STDOUT, text=True,
        env=dict(os.environ, LEAN_NUM_THREADS="1"), start_new_session=True)
    o = ""
    for l in r.stdout:
        o += l
        e = ERR.match(l)
        if e and decl(d, e.group(1), int(e.group(2)))[0] not in ("example",):
            os.killpg(r.pid, 9); break
    r.wait()
    return o, r.returncode

done = set()
if os.path.exists(d + ".results"): done = {json.loads(l)["id"] for l in open(d + ".results")}
out = open(d + ".results", "a")
todo = list(auto.make(SRC, 2, seed).items())
if len(sys.argv) > 3: todo = todo[int(sys.argv[3]):]  # start later: several can run side by side
for mid, m in todo:
    if mid in done: continue
    t0 = time.time()
    shutil.rmtree(d, ignore_errors=True)
    subprocess.run(["cp", "-a", SRC, d], check=True)
    f = f"{d}/Verif/{m['file']}"
    s = open(f).read()
    if m["old"] not in s: continue
    open(f, "w").write(s.replace(m["old"], m["new"], 1))
    seen = []
    for _ in range(12):
        o, rc = build(d)
        hits = []; own = False; drop = {}
        for e in ERR.finditer(o):
            kind, nm, k = decl(d, e.group(1), int(e.group(2)))
            if kind in ("def", "abbrev", "instance", "inductive", "structure"): own = True
            if kind == "example": drop.setdefault(e.group(1), set()).add(k)
            h = f"{kind} {nm}"
            if h not in hits: hits.append(h)
        seen += hits
        if rc == 0 or not hits or own or not all(h.startswith("example") for h in hits): break
        # Only examples fail: take them out and see whether a theorem fails after them.
        for fn, ks in drop.items():
            lines = open(f"{d}/{fn}").read().split("\n")
            for k in sorted(ks, reverse=True):
                j = k + 1
                while j < len(lines) and lines[j].startswith(" "): j += 1
                i = k
                if i > 0 and lines[i-1].rstrip().endswith("-/"):
                    i -= 1
                    while not lines[i].lstrip().startswith("/-"): i -= 1
                del lines[i:j]
            open(f"{d}/{fn}", "w").write("\n".join(lines))
    hits = seen
    st = "invalid" if own else ("survivor" if rc == 0 or all(h.startswith("example") for h in hits) else "noticed")
    out.write(json.dumps(dict(id=mid, file=m["file"], defn=m["defn"], line=m["line"], status=st, hits=hits[:20], secs=round(time.time()-t0))) + "\n"); out.flush()
