#!/usr/bin/env python3
"""Regenerates MANIFEST.json from the theorem names in lean/Verif/Props and the notes in tools/notes.json.

A property is `proved` when it has theorems and none of them is `_partial` or `_refuted` (unless
tools/notes.json overrides the status), `partial` otherwise.
With --axioms prints a Lean file that prints the axioms of every claimed theorem."""
import glob, json, os, re, sys
root = os.path.dirname(os.path.dirname(os.path.abspath(__file__)))
thms = {}
mods = []
for f in sorted(glob.glob(root + "/lean/Verif/Props/*.lean")):
    mods.append("Verif.Props." + os.path.basename(f)[:-5])
    ns = []
    for line in open(f):
        m = re.match(r"namespace (\S+)", line)
        if m: ns.append(m.group(1))
        m = re.match(r"end (\S+)", line)
        if m and ns and ns[-1] == m.group(1): ns.pop()
        m = re.match(r"(?:protected |private )?theorem ((C\d\d+)_\S+)", line)
        if m:
            thms.setdefault(m.group(2), []).append(".".join(ns + [m.group(1)]))
ids = [json.loads(l)["id"] for l in open(root + "/properties.jsonl")]
notes = json.load(open(root + "/tools/notes.json")) if os.path.exists(root + "/tools/notes.json") else {}
if "--axioms" in sys.argv:
    for m in mods: print("import " + m)
    for p in ids:
        for t in thms.get(p, []): print("#print axioms " + t)
    sys.exit()
claims = []
missing = []
for p in ids:
    ts = thms.get(p, [])
    n = notes.get(p, {})
    if isinstance(n, str): n = {"note": n}
    if not ts and "status" not in n:
        missing.append(p); continue
    st = n.get("status") or ("partial" if any("_partial" in t or "_refuted" in t for t in ts) else "proved")
    claims.append({"property": p, "status": st, "theorems": ts, "note": n.get("note", "")})
extra = set(thms) - set(ids)
if extra: print("theorems without property:", extra)
json.dump({"claims": claims}, open(root + "/MANIFEST.json", "w"), indent=1, ensure_ascii=False)
print("claims", len(claims), "missing", " ".join(missing))
for c in claims:
    if c["status"] == "partial" and not c["note"]: print("no note:", c["property"])
