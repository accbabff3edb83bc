#!/usr/bin/env python3
"""Writes MANIFEST.json from the table below."""
import json, os
P, Q, N = "proved", "partial", "not_applicable"
claims = []
def c(prop, status, thms, note=""):
    claims.append({"property": prop, "status": status, "theorems": ["Poros." + t for t in thms], "note": note})
exec(open(os.path.join(os.path.dirname(__file__), "claims.py")).read())
json.dump({"claims": claims}, open(os.path.join(os.path.dirname(__file__), "..", "MANIFEST.json"), "w"), indent=1)
