"""Add or replace claims in MANIFEST.json.  Usage: edit CLAIMS via stdin JSON list."""
import json, sys, pathlib
p = pathlib.Path(__file__).resolve().parent.parent / "MANIFEST.json"
m = json.loads(p.read_text())
new = {c["property"]: c for c in json.load(sys.stdin)}
cl = {c["property"]: c for c in m["claims"]}
cl.update(new)
m["claims"] = [cl[k] for k in sorted(cl, key=lambda k: int(k[1:]))]
p.write_text(json.dumps(m, indent=1) + "\n")
