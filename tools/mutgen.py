#!/usr/bin/env python3
"""Random small edits of model definitions (those whose comment cites /repo lines).
usage: mutgen.py COUNT SEED > MUTATIONS.json   (input of mutate.py; survivors have to be read: some edits change nothing)"""
import glob, json, random, re, sys
n, seed = int(sys.argv[1]), int(sys.argv[2])
random.seed(seed)
ROOT = "/verif/lean/"
files = sorted(glob.glob(ROOT + "Verif/**/*.lean", recursive=True))
OPS = [(r" \+ ", " - "), (r" - ", " + "), (r" \* ", " + "), (r" < ", " ≤ "), (r" ≤ ", " < "), (r" = ", " ≠ "), (r" ≠ ", " = "), (r" && ", " || "), (r" \|\| ", " && "),
       (r" ∧ ", " ∨ "), (r" ∨ ", " ∧ "), (r"\btrue\b", "false"), (r"\bfalse\b", "true"), (r"\.head\?", ".getLast?"), (r"\.take\b", ".drop"), (r"\.drop\b", ".take"),
       (r"\b0\b", "1"), (r"\b1\b", "0"), (r"\b1\b", "2"), (r"\.any\b", ".all"), (r"\.all\b", ".any"), (r" \+\+ ", " ++ [] ++ "), (r"\bmax\b", "min"), (r"\bmin\b", "max"),
       (r"\.isNone", ".isSome"), (r"\.isSome", ".isNone"), (r"\bnone\b", "default"), (r"not \(", "("), (r"\.reverse", ""), (r"∈", "∉"), (r"∉", "∈"), (r"\.length", ".length + 1"),
       (r"\.map", ".reverse.map"), (r"\.filter\b", ".map id |>.filter")]
SKIP = {(r" \+\+ ", " ++ [] ++ "), (r"\.filter\b", ".map id |>.filter")}
cands = []
for f in files:
    t = open(f).read()
    for mm in re.finditer(r"/--((?:(?!-/).)*?)-/\s*\n((?:@\[[^\]]*\]\s*)?(?:noncomputable |private )*def (\S+).*?)(?=\n\s*\n|\n/--|\ntheorem|\nend |\nvariable|\nomit)", t, re.S):
        doc, body, name = mm.group(1), mm.group(2), mm.group(3)
        if ".py:" not in doc and not re.search(r"`:\d", doc): continue
        k = body.find(":=")
        k2 = body.find("\n  |")
        if k < 0 and k2 < 0: continue
        start = min(x for x in (k + 2 if k >= 0 else 10**9, k2 if k2 >= 0 else 10**9))
        head, tail = body[:start], body[start:]
        for pat, rep in OPS:
            if (pat, rep) in SKIP: continue
            for o in re.finditer(pat, tail):
                new = head + tail[:o.start()] + rep + tail[o.end():]
                line = tail[:o.start()].count("\n")
                cands.append(dict(file=f[len(ROOT):], **{"def": name}, old=body, new=new,
                                  edit="%s → %s in line %d of the body: %s" % (o.group(0).strip(), rep.strip(), line, tail.split("\n")[line].strip()[:120]),
                                  claim="random edit"))
by = {}
for c in cands: by.setdefault((c["file"], c["def"]), []).append(c)
keys = sorted(by)
random.shuffle(keys)
out = [random.choice(by[k]) for k in keys[:n]]
sys.stderr.write("%d definitions, %d edits\n" % (len(by), len(cands)))
json.dump(out, sys.stdout, ensure_ascii=False)
