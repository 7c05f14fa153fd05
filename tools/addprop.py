"""usage: addprop.py batch.json ; batch = {"props": [[id,title,statement,quantifier,why,[anchors],plan],...], "notes": {id: note}}
Appends properties to props.py, their plan lines to DESIGN.md, notes to notes.json."""
import json, os, sys
root = os.path.dirname(os.path.dirname(os.path.abspath(__file__)))
b = json.load(open(sys.argv[1]))
pp = os.path.join(root, "tools/props.py")
s = open(pp).read()
d = open(os.path.join(root, "DESIGN.md")).read().rstrip("\n")
for q in b.get("props", []):
    assert f'p("{q[0]}",' not in s, q[0]
    j = lambda x: json.dumps(x, ensure_ascii=False)
    s = s.replace('if __name__ == "__main__":', "p(" + ",\n  ".join([j(q[0]) + ", " + j(q[1])] + [j(x) for x in q[2:]]) + ")\n" + 'if __name__ == "__main__":')
    d += f"\n- **{q[0]} {q[1]}.** {q[6]}"
open(pp, "w").write(s)
open(os.path.join(root, "DESIGN.md"), "w").write(d + "\n")
np_ = os.path.join(root, "tools/notes.json")
n = json.load(open(np_))
n.update(b.get("notes", {}))
json.dump(n, open(np_, "w"), indent=1, ensure_ascii=False)
