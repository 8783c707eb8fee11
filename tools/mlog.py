#!/usr/bin/env python3
"""Append mutation results to seeded/LOG.jsonl: mlog.py SPEC.py OUTPUT.txt [JSON: {"index": {"tightened": [...], "note": "..."}}]"""
import sys, re, json, importlib.util
spec = importlib.util.spec_from_file_location("spec", sys.argv[1]); m = importlib.util.module_from_spec(spec); spec.loader.exec_module(m)
extra = json.loads(sys.argv[3]) if len(sys.argv) > 3 else {}
out = open(sys.argv[2]).read()
with open("/verif/seeded/LOG.jsonl", "a") as f:
    for x in re.finditer(r"^(\d+)\. .*\n   claim: .*\n   (.*)$", out, re.M):
        k = int(x.group(1)); mu = m.MUTS[k]
        try: fails = [d for v in json.loads(x.group(2)).values() for d in v]
        except Exception: fails = []
        e = extra.get(str(k), {})
        f.write(json.dumps(dict(definition=mu["definition"], edit=mu["edit"], claim=mu["claim"], theorems_failed=fails,
            theorems_tightened=e.get("tightened", []), note=e.get("note", "" if fails else "still builds"))) + "\n")
