#!/usr/bin/env python3
"""Regenerates MANIFEST.json, and the table between the markers in DESIGN.md, from the theorem names in
lean/Verif/Props and tools/notes.json.

A property theorem is named C<number>_<something>. Status: "partial" when notes.json says so, else "proved"
when there is at least one theorem, else "not_applicable" if notes.json says so, else the property is omitted."""
import glob, json, re, os
root = os.path.dirname(os.path.dirname(os.path.abspath(__file__)))
notes = json.load(open(f"{root}/tools/notes.json"))
props = [json.loads(l) for l in open(f"{root}/properties.jsonl")]
thms = {}
for f in sorted(glob.glob(f"{root}/lean/Verif/Props/*.lean")):
    for m in re.finditer(r"^theorem (C\d+_\w*)", open(f).read(), re.M):
        thms.setdefault(m.group(1).split("_")[0], []).append("LinfaLinalg." + m.group(1))
claims = []
for p in props:
    i = p["id"]
    n = notes.get(i, {})
    t = thms.get(i, []) + n.get("also", [])
    st = n.get("status") or ("proved" if t else None)
    if st is None:
        continue
    claims.append({"property": i, "status": st, "theorems": t, "note": n.get("note", "")})
json.dump({"claims": claims}, open(f"{root}/MANIFEST.json", "w"), indent=1, ensure_ascii=False)
rows = ["| id | property | status | model | how proved | scope, gaps |", "|---|---|---|---|---|---|"]
for p in props:
    n = notes.get(p["id"], {})
    st = {c["property"]: c["status"] for c in claims}.get(p["id"], "open")
    rows.append("| " + " | ".join(x.replace("|", "\\|") for x in (
        p["id"], p["title"], st, n.get("model", ""), n.get("how", ""), n.get("note", ""))) + " |")
d = open(f"{root}/DESIGN.md").read()
a, b = "<!-- table -->\n", "<!-- end of table -->"
if a in d:
    d = d[:d.index(a) + len(a)] + "\n".join(rows) + "\n" + d[d.index(b):]
    open(f"{root}/DESIGN.md", "w").write(d)
print(len(claims), "claims", sum(len(c["theorems"]) for c in claims), "theorems; missing:",
      [p["id"] for p in props if p["id"] not in {c["property"] for c in claims}])
