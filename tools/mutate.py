#!/usr/bin/env python3
"""Mutation testing of the model in a scratch copy.
usage: mutate.py MUTATIONS.json   (list of {file, def, old, new, edit, claim})
Appends one line per mutation to /verif/seeded/LOG.jsonl."""
import json, os, re, signal, subprocess, sys, shutil
SRC, DST = "/verif/lean", "/tmp/mut/lean"
LOG = "/verif/seeded/LOG.jsonl"

def sync():
    os.makedirs("/tmp/mut", exist_ok=True)
    subprocess.run(["rsync", "-a", "--delete", SRC + "/", DST + "/"], check=False) if shutil.which("rsync") else \
        (shutil.rmtree(DST, ignore_errors=True), shutil.copytree(SRC, DST, symlinks=True))

def enclosing(path, line):
    ls = open(path).read().split("\n")
    for i in range(min(line, len(ls)) - 1, -1, -1):
        m = re.match(r"(?:@\[.*?\]\s*)?(?:noncomputable |private )*(theorem|lemma|def|instance|example|structure)\s*(\S*)", ls[i])
        if m:
            return m.group(2).rstrip(":") if m.group(1) != "example" else "example@%d" % (i + 1)
    return "?"

def run(m):
    path = os.path.join(DST, m["file"])
    orig = open(path).read()
    if orig.count(m["old"]) < 1:
        return {"status": "pattern not found"}
    new = orig.replace(m["old"], m["new"], 1)
    open(path, "w").write(new)
    try:
        if os.environ.get("FAST"):  # stop at the first module that fails
            pr = subprocess.Popen(["lake", "build"], cwd=DST, stdout=subprocess.PIPE, stderr=subprocess.STDOUT, text=True, start_new_session=True)
            out, rc, seen = "", 0, False
            for line in pr.stdout:
                out += line
                if line.startswith("error: Lean exited"):
                    os.killpg(pr.pid, signal.SIGKILL)
                    rc = 1
                    break
            rc = pr.wait() or rc
            r = type("R", (), {"returncode": rc})
        else:
            r = subprocess.run(["lake", "build"], cwd=DST, capture_output=True, text=True, timeout=1800)
            out = r.stdout + r.stderr
        fails = []
        for f, l in re.findall(r"error: (Verif/[^:\n]*):(\d+):\d+", out):
            n = enclosing(os.path.join(DST, f), int(l))
            if n not in fails:
                fails.append(n)
        return {"status": "ok" if r.returncode == 0 else "failed", "fails": fails}
    finally:
        open(path, "w").write(orig)

if __name__ == "__main__":
    muts = json.load(open(sys.argv[1]))
    sync()
    for m in muts:
        r = run(m)
        print(m["def"], "|", m["edit"], "|", r, flush=True)
        if r["status"] == "pattern not found":
            continue
        rec = {"definition": m["def"], "file": "lean/" + m["file"], "edit": m["edit"], "claim_broken": m["claim"],
               "theorems_failed": r["fails"], "theorems_tightened": [],
               "outcome": "caught" if r["fails"] else "SURVIVED"}
        open(LOG, "a").write(json.dumps(rec, ensure_ascii=False) + "\n")
