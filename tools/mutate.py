#!/usr/bin/env python3
"""Seed bugs into a scratch copy of the model and see which theorems notice.

usage: mutate.py SCRATCH ID...      (mutations are in /verif/seeded/mutations.py)

For each mutation the model is edited in SCRATCH, the project is built, and the proof of every theorem that no
longer checks is cut out (replaced by `sorry`, in the scratch copy only) until everything builds.  A property theorem is
`failed` if it then depends on a cut proof, else it `survived`.  One JSON line per mutation goes to SCRATCH.results.
"""
import sys, os, re, json, subprocess, shutil, time
sys.path.insert(0, "/verif/seeded")
from mutations import MUTATIONS

SRC = os.environ.get("MUTBASE", "/tmp/mutbase")   # a built copy of /verif/lean; the manifest that goes with it is in SRC.manifest
DECL = re.compile(r"^(?:private |protected |noncomputable |@\[[^\]]*\] ?)*(theorem|lemma|example|def|abbrev|instance|inductive|structure|macro|end|namespace|open|section|variable|deriving|/--|/-!|set_option)\b")

def split_decls(lines):
    """(start, end) line ranges of top-level pieces"""
    starts = [i for i, l in enumerate(lines) if DECL.match(l) or l.startswith("/--") or l.startswith("/-!") or l.startswith("@[")]
    starts.append(len(lines))
    return [(starts[i], starts[i+1]) for i in range(len(starts)-1)]

def prevdoc(decls, lines, a):
    """start of the doc comment before line a, else a"""
    for (x, y) in decls:
        if y == a and lines[x].startswith("/--"): return x
    return a

def cut(text):
    """replace the proof of a theorem by sorry"""
    depth = 0; i = 0
    while i < len(text):
        c = text[i]
        if c == '"':
            i = re.compile(r'"(?:[^"\\]|\\.)*"', re.S).match(text, i).end(); continue
        if c in "([{⟨": depth += 1
        elif c in ")]}⟩": depth -= 1
        elif depth == 0 and text.startswith(":=", i) and not text[:i].split("\n")[-1].lstrip().startswith("let "):
            return text[:i] + ":= by sorry\n\n"
        elif depth == 0 and text.startswith(" where\n", i):
            return text[:i] + " := by sorry\n\n"
        elif depth == 0 and re.match(r"\n  \| ", text[i:]) and not re.search(r"match[^\n]*with\s*$", text[:i]):
            return text[:i] + " := by sorry\n\n"
        i += 1
    return None

def build(d):
    env = dict(os.environ, LEAN_NUM_THREADS="2")
    r = subprocess.run(["lake", "build"], cwd=d, capture_output=True, text=True, env=env)
    out = r.stdout + r.stderr
    errs = {}
    for m in re.finditer(r"^error: (Verif[\w/]*\.lean):(\d+):(\d+):(.*)$", out, re.M):
        errs.setdefault(m.group(1), []).append((int(m.group(2)), m.group(4)))
    return r.returncode, errs, out

def claims():
    return {c["property"]: c["theorems"] for c in json.load(open(SRC + ".manifest"))["claims"]}

def manifest():
    return [t for ts in claims().values() for t in ts]

def main():
    d = sys.argv[1]
    results = open(d.rstrip("/") + ".results", "a")
    for mid in sys.argv[2:]:
        m = MUTATIONS[mid]
        t0 = time.time()
        shutil.rmtree(d, ignore_errors=True)
        subprocess.run(["cp", "-a", SRC, d], check=True)
        ok = True
        for (fn, old, new) in [(m["file"], m["old"], m["new"])] + m.get("also", []):
            f = f"{d}/Verif/{fn}"
            s = open(f).read()
            ok = ok and s.count(old) >= 1
            open(f, "w").write(s.replace(old, new, m.get("count", 1)))
        if not ok:
            print(mid, "NO MATCH"); continue
        direct = []; problem = None
        for rnd in range(60):
            rc, errs, out = build(d)
            if rc == 0: break
            if not errs:
                problem = out[-2000:]; break
            for fn, es in errs.items():
                p = f"{d}/{fn}"
                lines = open(p).read().split("\n")
                decls = split_decls(lines)
                bad = []
                for ln, msg in es:
                    for (a, b) in decls:
                        if a <= ln-1 < b and (a, b) not in bad: bad.append((a, b))
                for (a, b) in sorted(bad, reverse=True):
                    text = "\n".join(lines[a:b]) + "\n"
                    k = DECL.match(lines[a]); k = k.group(1) if k else None
                    if k == "example":
                        direct.append(f"{fn[6:-5]}: example {lines[a][:60]}")
                        lines[prevdoc(decls, lines, a):b] = [""]
                    elif k in ("theorem", "lemma"):
                        name = re.match(r".*?(?:theorem|lemma) (\S+)", lines[a]).group(1)
                        if "sorry" in text: problem = f"{fn}: {name} still fails after the cut: {es}"; break
                        direct.append(name)
                        c = cut(text)
                        if c is None: problem = f"{fn}: cannot cut {name}"; break
                        lines[a:b] = c.split("\n")
                    else:
                        problem = f"{fn}:{a+1}: {lines[a][:80]} {es}"; break
                if problem: break
                open(p, "w").write("\n".join(lines))
            if problem: break
        else:
            problem = "too many rounds"
        failed = survived = None
        if not problem:
            names = manifest()
            open(f"{d}/ax.lean", "w").write("import Verif\nopen Verif\n" + "".join(f"#print axioms {n}\n" for n in names))
            o = subprocess.run(["lake", "env", "lean", "ax.lean"], cwd=d, capture_output=True, text=True).stdout
            os.remove(f"{d}/ax.lean")
            st = {}
            for n in names:
                mm = re.search(r"'(?:Verif\.)?" + re.escape(n) + r"' (does not depend on any axioms|depends on axioms: \[([^\]]*)\])", o)
                st[n] = None if not mm else ("sorryAx" in (mm.group(2) or ""))
            failed = [n for n in names if st[n]]; survived = [n for n in names if st[n] is False]
            unk = [n for n in names if st[n] is None]
            if unk: problem = f"unknown {unk}"
        expect = m.get("breaks", [])
        missed = [p for p in expect if failed is not None and not any(n in failed for n in claims()[p])]
        r = dict(id=mid, direct=direct, failed=failed, survived=survived, missed=missed, problem=problem, secs=round(time.time()-t0))
        results.write(json.dumps(r) + "\n"); results.flush()
        print(mid, "missed:", missed, "problem:", problem, "direct:", len(direct), r["secs"], flush=True)
main()
