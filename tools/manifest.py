"""Rebuild MANIFEST.json, lean/Verif.lean and lean/Verif/Audit.lean from the theorem names in lean/Verif/Props.

A property is `proved` when it has at least one theorem and no `_partial` theorem (overridden by tools/notes.json).
"""
import glob, json, os, re

root = os.path.dirname(os.path.dirname(os.path.abspath(__file__)))
props = [json.loads(l) for l in open(root + "/properties.jsonl")]
notes = json.load(open(root + "/tools/notes.json"))
thms = {}
for f in sorted(glob.glob(root + "/lean/Verif/Props/**/*.lean", recursive=True)):
    text = open(f).read()
    ns = re.search(r"^namespace (\S+)", text, re.M).group(1) + "."
    for m in re.finditer(r"^theorem ((C\d+)_\w+)", text, re.M):
        thms.setdefault(m.group(2), []).append(ns + m.group(1))
claims = []
for p in props:
    t = thms.get(p["id"], [])
    n = notes.get(p["id"], {})
    status = n.get("status") or ("partial" if any("_partial" in x for x in t) else "proved" if t else "partial")
    if not t and status != "not_applicable":
        continue
    claims.append({"property": p["id"], "status": status, "theorems": t, "note": n.get("note", "")})
unknown = set(thms) - {p["id"] for p in props}
assert not unknown, unknown
with open(root + "/MANIFEST.json", "w") as f:
    f.write('{"claims": [\n' + ",\n".join(json.dumps(c, ensure_ascii=False) for c in claims) + "\n]}\n")
mods = sorted(os.path.relpath(f, root + "/lean")[:-5].replace("/", ".")
              for f in glob.glob(root + "/lean/Verif/**/*.lean", recursive=True))
with open(root + "/lean/Verif.lean", "w") as f:
    f.write("".join(f"import {m}\n" for m in mods))
with open(root + "/lean/Verif/Audit.lean", "w") as f:
    f.write("".join(f"import {m}\n" for m in mods if m.startswith("Verif.Props")))
    f.write("\n/-! Axioms of every property theorem (generated by tools/manifest.py). -/\n\n")
    for c in claims:
        for t in c["theorems"]:
            f.write(f"#print axioms {t}\n")
missing = [p["id"] for p in props if p["id"] not in thms]
print(len(claims), "claims; without theorem:", missing)
