#!/usr/bin/env python3
"""Writes COVERAGE.md: which files each model cites, and which functions of /repo no definition of the model cites."""
import ast, collections, glob, os, re

root = os.path.dirname(os.path.dirname(os.path.abspath(__file__)))
pat = re.compile(r"([\w/\.]+\.py):((?:\d+(?:[-–]\d+)?(?:,\s*)?)+)")
files = sorted(glob.glob("/repo/netket/**/*.py", recursive=True))
by_name = collections.defaultdict(list)
for f in files:
    parts = f[len("/repo/"):].split("/")
    for i in range(len(parts)):
        by_name["/".join(parts[i:])].append("/".join(parts))
cites = collections.defaultdict(list)
out = ["# What is modelled", "",
       "Generated by `tools/coverage.py` from the citations in `lean/Verif/Model`.", "",
       "## Files behind each module of the model", ""]
for m in sorted(glob.glob(root + "/lean/Verif/Model/*.lean")):
    text = open(m).read()
    full = [n for n in by_name if "/" in n and n.startswith("netket/") and n in text]
    seen = set(full)
    for a, b in pat.findall(text):
        cands = by_name.get(a, [])
        # a bare file name means the file the module header names, if there is one
        named = [c for c in cands if c in full]
        if named:
            cands = named
        for c in cands:
            if len(cands) == 1 or named:
                seen.add(c)
            for lo, hi in re.findall(r"(\d+)(?:[-–](\d+))?", b):
                cites[c].append((int(lo), int(hi or lo)))
    out.append(f"- `{os.path.basename(m)[:-5]}`: " + (", ".join(f"`{s[7:]}`" for s in sorted(seen)) or "several"))
tot = cov = 0
missing = collections.defaultdict(list)
for f in files:
    r = f[len("/repo/"):]

    def walk(node, pre):
        global tot, cov
        for c in ast.iter_child_nodes(node):
            if isinstance(c, ast.FunctionDef):
                tot += 1
                if any(lo <= c.end_lineno and hi >= c.lineno for lo, hi in cites[r]):
                    cov += 1
                else:
                    missing[r].append(f"{pre}{c.name} ({c.lineno})")
            if isinstance(c, ast.ClassDef):
                walk(c, pre + c.name + ".")

    walk(ast.parse(open(f).read()), "")
out += ["", "## Functions no definition of the model cites", "",
        f"{cov} of {tot} functions are cited.  Not cited are the following (with the line of the definition); most of"
        " them are texts for display (`__repr__`), properties that return an attribute, and wrappers that pass their"
        " arguments on.", ""]
out += [f"- `{r[7:]}`: " + ", ".join(v) for r, v in sorted(missing.items())]
open(root + "/COVERAGE.md", "w").write("\n".join(out) + "\n")
print(cov, tot)
