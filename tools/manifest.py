"""Regenerates MANIFEST.json: collects every theorem named Cnn_* in lean/Verif/Props and pairs it with notes.json."""
import json, re, glob, os
root = os.path.dirname(os.path.dirname(os.path.abspath(__file__)))
thms = {}
for f in sorted(glob.glob(root + "/lean/Verif/Props/**/*.lean", recursive=True)):
    ns = "GE"
    for line in open(f):
        m = re.match(r"\s*(?:noncomputable\s+)?theorem (C\d\d+)_(\S+)", line)
        if m:
            thms.setdefault(m.group(1), []).append(f"{ns}.{m.group(1)}_{m.group(2)}")
notes = json.load(open(root + "/tools/notes.json"))
props = [json.loads(l)["id"] for l in open(root + "/properties.jsonl") if l.strip()]
claims = []
for p in props:
    ts = thms.get(p, [])
    n = notes.get(p, {})
    if not ts:
        st = n.get("status", None)
        if st is None:
            print("no theorems for", p); continue
    else:
        st = n.get("status") or ("partial" if any(t.endswith("_partial") for t in ts) else "proved")
    claims.append({"property": p, "status": st, "theorems": ts, "note": n.get("note", "")})
json.dump({"claims": claims}, open(root + "/MANIFEST.json", "w"), indent=1)
print({s: sum(c["status"] == s for c in claims) for s in ("proved", "partial", "not_applicable")}, sum(len(c["theorems"]) for c in claims))
for k in thms:
    if k not in props: print("theorem without property", k)
