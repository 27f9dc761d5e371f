#!/usr/bin/env python3
"""Regenerates MANIFEST.json from claims.py (kept in one place to avoid typos). One claim per property."""
import json, os
C = {}
def c(p, status, ns, thms, note=""):
    e = C.setdefault(p, {"property": p, "status": status, "theorems": [], "note": ""})
    if status == "partial":
        e["status"] = "partial"
    e["theorems"] += [f"Verif.{ns}.{t}" for t in thms.split()]
    e["note"] = (e["note"] + " " + note).strip()
d = os.path.dirname(os.path.abspath(__file__))
exec(open(os.path.join(d, "claims.py")).read())
json.dump({"claims": [C[k] for k in sorted(C)]}, open(os.path.join(d, "..", "MANIFEST.json"), "w"), indent=1)
