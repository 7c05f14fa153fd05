#!/usr/bin/env python3
"""Seeded-bug runner. usage: tools/seed.py batch.json
batch: list of {definition, file (under lean/Verif), old, new, edit, claim, tightened?}.
Each mutation is applied to a scratch copy (/tmp/seed), rebuilt; one JSON line is appended to seeded/LOG.jsonl.
A theorem counts as failed when its proof no longer checks, or when a lemma it needs no longer checks
(its module cannot be built)."""
import json, os, re, subprocess, sys
ROOT = os.path.dirname(os.path.dirname(os.path.abspath(__file__)))
S = "/tmp/seed"

def sync():
    os.makedirs(S, exist_ok=True)
    subprocess.run(["rsync", "-a", "--delete", ROOT + "/lean/", S + "/"], check=True) if False else \
        subprocess.run(f"rm -rf {S} && cp -a {ROOT}/lean {S}", shell=True, check=True)

def imports():
    g = {}
    for d, _, fs in os.walk(S + "/Verif"):
        for f in fs:
            if f.endswith(".lean"):
                p = os.path.join(d, f)
                m = os.path.relpath(p, S)[:-5].replace("/", ".")
                g[m] = re.findall(r"^import (Verif\S*)", open(p).read(), re.M)
    return g

def main():
    batch = json.load(open(sys.argv[1]))
    sync()
    g = imports()
    for b in batch:
        p = f"{S}/Verif/{b['file']}"
        src = open(p).read()
        if src.count(b["old"]) != 1:
            print("!! old text found", src.count(b["old"]), "times:", b["definition"], b["old"][:60]); continue
        open(p, "w").write(src.replace(b["old"], b["new"]))
        try:
            r = subprocess.run(["lake", "build"], cwd=S, capture_output=True, text=True, timeout=3000)
            out = r.stdout + r.stderr
        finally:
            open(p, "w").write(src)
        failed, mods = [], set()
        model_err = False
        for m in re.finditer(r"error: (Verif/\S+\.lean):(\d+):", out):
            f, ln = m.group(1), int(m.group(2))
            mod = f[:-5].replace("/", "."); mods.add(mod)
            lines = open(f"{S}/{f}").read().split("\n")[:ln] if f != f"Verif/{b['file']}" else \
                src.replace(b["old"], b["new"]).split("\n")[:ln]
            name = "?"
            for l in reversed(lines):
                mm = re.match(r"\s*(?:private |noncomputable |protected )*(theorem|lemma|def|example|instance|inductive|structure)\s*(\S*)", l)
                if mm:
                    name = mm.group(2) if mm.group(1) != "example" else "example"; break
            if f.startswith("Verif/Model"): model_err = True
            k = mod.split(".")[-1] + "." + name
            if k not in failed: failed.append(k)
        blocked = set()
        ch = True
        while ch:
            ch = False
            for m, im in g.items():
                if m not in blocked and m not in mods and any(i in mods or i in blocked for i in im):
                    blocked.add(m); ch = True
        bl = sorted(x for x in blocked if ".Props." in x)
        blth = []
        for m in bl:
            blth += re.findall(r"^theorem (C\d+_\w+)", open(f"{S}/{m.replace('.', '/')}.lean").read(), re.M)
        rec = {"definition": b["definition"], "edit": b["edit"], "claim": b["claim"],
               "failed": failed, "blocked": blth, "tightened": b.get("tightened", [])}
        tag = "MODEL ERROR" if model_err else ("SURVIVED" if not failed else "ok")
        print(tag, b["definition"], "|", b["edit"], "|", failed[:8], "| blocked", len(blth))
        if not model_err and "--dry" not in sys.argv:
            with open(ROOT + "/seeded/LOG.jsonl", "a") as f:
                f.write(json.dumps(rec, ensure_ascii=False) + "\n")
    # leave the scratch copy behind for inspection
main()
