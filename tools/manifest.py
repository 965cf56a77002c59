# Regenerates lean/Verif.lean (imports) and MANIFEST.json (claims) from the
# theorem names in the sources plus the status/notes below.
import json, os, re
root = os.path.dirname(os.path.dirname(os.path.abspath(__file__)))
lean = os.path.join(root, "lean")
mods, thms = [], {}
for d, _, fs in os.walk(os.path.join(lean, "Verif")):
    for f in sorted(fs):
        if not f.endswith(".lean"): continue
        p = os.path.join(d, f)
        mods.append(os.path.relpath(p, lean)[:-5].replace("/", "."))
        ns = []
        for line in open(p):
            m = re.match(r"namespace (\S+)", line)
            if m: ns.append(m.group(1)); continue
            m = re.match(r"end (\S+)", line)
            if m and ns and ns[-1] == m.group(1): ns.pop(); continue
            m = re.match(r"(?:protected )?theorem (C\d+)(_\S+)", line)
            if m: thms.setdefault(m.group(1), []).append(".".join(ns + [m.group(1) + m.group(2)]))
mods.sort()
open(os.path.join(lean, "Verif.lean"), "w").write("".join("import %s\n" % m for m in mods))
notes = {}
exec(open(os.path.join(root, "tools", "notes.py")).read(), {"notes": notes})
props = [json.loads(l)["id"] for l in open(os.path.join(root, "properties.jsonl"))]
claims = []
for c in props:
    t = thms.get(c, [])
    if not t and c not in notes: continue
    status, note = notes.get(c, ("proved", ""))
    if c not in notes and any(x.endswith("_partial") or x.endswith("_violated") for x in t):
        print("no note for", c); status = "partial"
    claims.append({"property": c, "status": status, "theorems": sorted(t), "note": note})
for c in thms:
    if c not in props: print("theorem for unknown property", c)
json.dump({"claims": claims}, open(os.path.join(root, "MANIFEST.json"), "w"), indent=1, ensure_ascii=False)
print(len(claims), "claims", sum(map(len, thms.values())), "theorems; missing:", [c for c in props if c not in thms])
